import Mathlib.Analysis.SpecialFunctions.Trigonometric.Series
import Mathlib.Analysis.SpecialFunctions.Exp
import Mathlib.Algebra.Polynomial.Derivative
import Mathlib.Topology.Algebra.InfiniteSum.NatInt

/-!
# Polynomials close to the cosines of a channel, and the error of Crank-Nicolson for a decaying exponential
-/

namespace SpectralDNS.Heat

open Polynomial Finset Filter Topology

/-- Taylor polynomial of `cos (l x)`. -/
noncomputable def taylor (l : ℝ) (d : ℕ) : ℝ[X] := ∑ k ∈ range d, monomial (2 * k) ((-1) ^ k * l ^ (2 * k) / (2 * k).factorial)

theorem taylor_succ (l : ℝ) (d : ℕ) : taylor l (d + 1) = taylor l d + monomial (2 * d) ((-1) ^ d * l ^ (2 * d) / (2 * d).factorial) := by
  rw [taylor, sum_range_succ, ← taylor]

theorem taylor_eval (l : ℝ) (d : ℕ) (x : ℝ) : (taylor l d).eval x = ∑ k ∈ range d, (-1) ^ k * (l * x) ^ (2 * k) / (2 * k).factorial := by
  rw [taylor, eval_finsetSum]
  refine sum_congr rfl fun k _ => ?_
  rw [eval_monomial, mul_pow]; ring

theorem taylor_degree (l : ℝ) (d : ℕ) : (taylor l d).degree < (2 * d : ℕ) := by
  rw [taylor]
  refine lt_of_le_of_lt (degree_sum_le _ _) ?_
  rw [Finset.sup_lt_iff (WithBot.bot_lt_coe _)]
  intro k hk
  refine lt_of_le_of_lt (degree_monomial_le _ _) ?_
  exact_mod_cast (by have := mem_range.1 hk; omega : 2 * k < 2 * d)

theorem taylor_second (l : ℝ) (d : ℕ) : derivative (derivative (taylor l (d + 1))) = -(Polynomial.C (l ^ 2) * taylor l d) := by
  induction d with
  | zero => simp [taylor]
  | succ d ih =>
    rw [taylor_succ, derivative_add, derivative_add, ih, taylor_succ l d, derivative_monomial, derivative_monomial, mul_add (Polynomial.C (l ^ 2)), C_mul_monomial,
      neg_add, ← map_neg (monomial (2 * d))]
    congr 1
    have e : 2 * (d + 1) - 1 - 1 = 2 * d := by omega
    rw [e]
    congr 1
    rw [show 2 * (d + 1) = 2 * d + 1 + 1 by ring, Nat.add_sub_cancel, Nat.factorial_succ, Nat.factorial_succ]
    have h : ((2 * d).factorial : ℝ) ≠ 0 := by exact_mod_cast Nat.factorial_ne_zero _
    push_cast
    have h1 : (2 * (d : ℝ) + 1) ≠ 0 := by positivity
    have h2 : (2 * (d : ℝ) + 1 + 1) ≠ 0 := by positivity
    field_simp
    ring

/-- What the Taylor polynomial leaves out, for all points of the channel. -/
noncomputable def tail (l : ℝ) (d : ℕ) : ℝ := ∑' k, l ^ (2 * (k + d)) / (2 * (k + d)).factorial

theorem cosh_summable (l : ℝ) : Summable fun k : ℕ => l ^ (2 * k) / (2 * k).factorial :=
  (Real.summable_pow_div_factorial l).comp_injective (i := fun k => 2 * k) fun a b h => by simpa using h

theorem tail_nonneg (l : ℝ) (d : ℕ) : 0 ≤ tail l d :=
  tsum_nonneg fun k => div_nonneg (by rw [pow_mul]; positivity) (by positivity)

theorem tail_tendsto (l : ℝ) : Tendsto (tail l) atTop (𝓝 0) := tendsto_sum_nat_add fun k => l ^ (2 * k) / (2 * k).factorial

theorem tail_anti (l : ℝ) (d : ℕ) : tail l (d + 1) ≤ tail l d := by
  have h := (summable_nat_add_iff d).2 (cosh_summable l)
  have h2 := h.sum_add_tsum_nat_add 1
  rw [sum_range_one] at h2
  have e : tail l (d + 1) = ∑' k, l ^ (2 * (k + 1 + d)) / (2 * (k + 1 + d)).factorial := by
    unfold tail
    exact tsum_congr fun k => by rw [show k + (d + 1) = k + 1 + d by ring]
  have h3 : 0 ≤ l ^ (2 * (0 + d)) / (2 * (0 + d)).factorial := div_nonneg (by rw [pow_mul]; positivity) (by positivity)
  rw [e]
  unfold tail
  linarith

theorem taylor_error (l : ℝ) (d : ℕ) {x : ℝ} (hx : |x| ≤ 1) : |(taylor l d).eval x - Real.cos (l * x)| ≤ tail l d := by
  have h := Real.hasSum_cos (l * x)
  have h2 := h.summable.sum_add_tsum_nat_add d
  rw [h.tsum_eq] at h2
  rw [taylor_eval, ← h2, sub_add_cancel_left, abs_neg]
  have hb : ∀ k : ℕ, ‖(-1) ^ (k + d) * (l * x) ^ (2 * (k + d)) / ((2 * (k + d)).factorial : ℝ)‖ ≤ l ^ (2 * (k + d)) / (2 * (k + d)).factorial := by
    intro k
    rw [Real.norm_eq_abs, abs_div, abs_mul, abs_pow, abs_neg, abs_one, one_pow, one_mul, Nat.abs_cast]
    refine div_le_div_of_nonneg_right ?_ (by positivity)
    rw [abs_pow, pow_mul, pow_mul, sq_abs, mul_pow]
    refine pow_le_pow_left₀ (by positivity) ?_ _
    have : x ^ 2 ≤ 1 := by rw [← sq_abs]; exact pow_le_one₀ (abs_nonneg _) hx
    nlinarith [sq_nonneg l]
  have hs := (summable_nat_add_iff d).2 (cosh_summable l)
  exact tsum_of_norm_bounded hs.hasSum hb

/-- Polynomial close to `cos (l x)` and zero at the walls. -/
noncomputable def approx (l : ℝ) (d : ℕ) : ℝ[X] := taylor l (d + 1) - Polynomial.C ((taylor l (d + 1)).eval 1)

theorem approx_walls (l : ℝ) (d : ℕ) : (approx l d).eval 1 = 0 ∧ (approx l d).eval (-1) = 0 := by
  constructor
  · simp [approx]
  · rw [approx, eval_sub, eval_C, taylor_eval, taylor_eval, sub_eq_zero]
    refine sum_congr rfl fun k _ => ?_
    rw [mul_neg, pow_mul, neg_sq, ← pow_mul]

theorem approx_degree (l : ℝ) (d : ℕ) : (approx l d).degree < (2 * (d + 1) : ℕ) := by
  refine lt_of_le_of_lt (degree_sub_le _ _) (max_lt (taylor_degree _ _) ?_)
  refine lt_of_le_of_lt degree_C_le ?_
  exact_mod_cast (by omega : 0 < 2 * (d + 1))

theorem approx_error {l : ℝ} (hl : Real.cos l = 0) (d : ℕ) {x : ℝ} (hx : |x| ≤ 1) : |(approx l d).eval x - Real.cos (l * x)| ≤ 2 * tail l d := by
  have h1 := taylor_error l (d + 1) hx
  have h2 := taylor_error l (d + 1) (x := 1) (by simp)
  rw [mul_one, hl, sub_zero] at h2
  have h3 := tail_anti l d
  rw [approx, eval_sub, eval_C]
  rw [abs_le] at h1 h2 ⊢
  constructor <;> linarith [h1.1, h1.2, h2.1, h2.2]

theorem approx_second {l : ℝ} (hl : Real.cos l = 0) (d : ℕ) {x : ℝ} (hx : |x| ≤ 1) :
    |(derivative (derivative (approx l d))).eval x + l ^ 2 * (approx l d).eval x| ≤ l ^ 2 * (3 * tail l d) := by
  have e : derivative (derivative (approx l d)) = -(Polynomial.C (l ^ 2) * taylor l d) := by
    rw [approx, derivative_sub, derivative_C, sub_zero, taylor_second]
  rw [e, eval_neg, eval_mul, eval_C, neg_add_eq_sub, ← mul_sub, abs_mul, abs_of_nonneg (sq_nonneg l)]
  refine mul_le_mul_of_nonneg_left ?_ (sq_nonneg l)
  have h1 := approx_error hl d hx
  have h2 := taylor_error l d hx
  rw [abs_le] at h1 h2 ⊢
  constructor <;> linarith [h1.1, h1.2, h2.1, h2.2]

/-! ## Crank-Nicolson for a decaying exponential -/

theorem cn_exp {s : ℝ} (hs : 0 ≤ s) : |Real.exp (-s) - 1 + s / 2 * (Real.exp (-s) + 1)| ≤ s ^ 3 := by
  have hp := Real.exp_pos (-s)
  have h1 : Real.exp (-s) ≤ 1 := Real.exp_le_one_iff.2 (by linarith)
  rcases le_total s 1 with h | h
  · have hb := Real.exp_bound (x := -s) (by rw [abs_neg, abs_of_nonneg hs]; exact h) (n := 3) (by norm_num)
    rw [sum_range_succ, sum_range_succ, sum_range_one, abs_neg, abs_of_nonneg hs] at hb
    norm_num [Nat.factorial] at hb
    set y := Real.exp (-s)
    have e : y - 1 + s / 2 * (y + 1) = (y - (1 + -s + s ^ 2 / 2)) * (1 + s / 2) + s ^ 3 / 4 := by ring
    rw [e]
    have h3 : 0 ≤ s ^ 3 := by positivity
    have h4 : |(y - (1 + -s + s ^ 2 / 2)) * (1 + s / 2)| ≤ s ^ 3 * (2 / 9) * (3 / 2) := by
      rw [abs_mul, abs_of_nonneg (show 0 ≤ 1 + s / 2 by linarith)]
      exact mul_le_mul hb (by linarith) (by linarith) (by positivity)
    rw [abs_le] at h4 ⊢
    constructor <;> linarith [h4.1, h4.2]
  · have h3 : s ≤ s ^ 3 := by nlinarith [sq_nonneg s]
    rw [abs_le]
    constructor <;> nlinarith

theorem step_exp {mu t h H : ℝ} (hmu : 0 < mu) (hh : 0 ≤ h) (hH : h ≤ H) :
    h * Real.exp (-mu * t) ≤ Real.exp (mu * H) / mu * (Real.exp (-mu * t) - Real.exp (-mu * (t + h))) := by
  rw [show -mu * (t + h) = -mu * t + -(mu * h) by ring, Real.exp_add]
  have h1 := Real.add_one_le_exp (mu * h)
  have h2 : Real.exp (mu * h) ≤ Real.exp (mu * H) := Real.exp_le_exp.2 (mul_le_mul_of_nonneg_left hH hmu.le)
  have h3 : Real.exp (mu * h) * Real.exp (-(mu * h)) = 1 := by rw [← Real.exp_add]; simp
  have hp := Real.exp_pos (-mu * t)
  have h5 : Real.exp (-(mu * h)) ≤ 1 := Real.exp_le_one_iff.2 (by have := mul_nonneg hmu.le hh; linarith)
  have h4 : mu * h ≤ Real.exp (mu * H) * (1 - Real.exp (-(mu * h))) := by
    have : Real.exp (mu * h) * (1 - Real.exp (-(mu * h))) ≤ Real.exp (mu * H) * (1 - Real.exp (-(mu * h))) :=
      mul_le_mul_of_nonneg_right h2 (by linarith)
    rw [mul_sub, h3] at this
    linarith
  rw [div_mul_eq_mul_div, le_div_iff₀ hmu]
  nlinarith

end SpectralDNS.Heat

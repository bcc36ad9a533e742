import Verif.Model.LegPoisson
import Mathlib.Tactic.LinearCombination
import Mathlib.Tactic.FieldSimp
import Mathlib.Algebra.Polynomial.Derivative
import Mathlib.Topology.Algebra.Polynomial
import Mathlib.Analysis.Calculus.Deriv.Polynomial
import Mathlib.MeasureTheory.Integral.IntervalIntegral.FundThmCalculus

/-! # Legendre polynomials: derivatives, values at the ends, integrals -/

namespace SpectralDNS.Leg

open Polynomial Finset

theorem C_ofNat2 : C (2 : ℝ) = 2 := rfl

theorem C_ofNat3 : C (3 : ℝ) = 3 := rfl

theorem leg_rec (k : ℕ) : ((k : ℝ[X]) + 2) * legendre (k + 2) = (2 * (k : ℝ[X]) + 3) * X * legendre (k + 1) - ((k : ℝ[X]) + 1) * legendre k := by
  have h : ((k : ℝ) + 2) ≠ 0 := by positivity
  rw [legendre, show ((k : ℝ[X]) + 2) = C ((k : ℝ) + 2) by simp [C_ofNat2], mul_sub, ← mul_assoc, ← mul_assoc, ← mul_assoc, ← C_mul, ← C_mul,
    mul_div_cancel₀ _ h, mul_div_cancel₀ _ h]
  simp [C_ofNat2, C_ofNat3]

theorem natCast_add_mul_cancel {k : ℕ} {p q : ℝ[X]} (h : ((k : ℝ[X]) + 2) * p = ((k : ℝ[X]) + 2) * q) : p = q := by
  refine mul_left_cancel₀ ?_ h
  have : ((k : ℝ[X]) + 2) = ((k + 2 : ℕ) : ℝ[X]) := by push_cast; ring
  rw [this]
  exact Nat.cast_ne_zero.2 (by omega)

theorem leg_deriv (k : ℕ) : derivative (legendre (k + 1)) = X * derivative (legendre k) + ((k : ℝ[X]) + 1) * legendre k ∧
    X * derivative (legendre (k + 1)) - derivative (legendre k) = ((k : ℝ[X]) + 1) * legendre (k + 1) := by
  induction k with
  | zero => simp [legendre]
  | succ k ih =>
    obtain ⟨ha, hb⟩ := ih
    have hr := leg_rec k
    have hd := congrArg derivative hr
    simp only [derivative_mul, derivative_sub, derivative_add, derivative_X, derivative_natCast, derivative_ofNat, derivative_one, zero_mul, add_zero, mul_zero, zero_add,
      mul_one] at hd
    have e1 : derivative (legendre (k + 2)) = X * derivative (legendre (k + 1)) + ((k : ℝ[X]) + 2) * legendre (k + 1) := by
      apply natCast_add_mul_cancel (k := k)
      linear_combination hd + ((k : ℝ[X]) + 1) * hb
    refine ⟨by push_cast; linear_combination e1, ?_⟩
    push_cast
    linear_combination X * e1 + X * hb - ha - hr

theorem leg_deriv_sub (k : ℕ) : derivative (legendre (k + 2)) - derivative (legendre k) = (2 * (k : ℝ[X]) + 3) * legendre (k + 1) := by
  have h1 := (leg_deriv (k + 1)).1
  have h2 := (leg_deriv k).2
  push_cast at h1
  linear_combination h1 + h2

theorem leg_one : ∀ k, (legendre k).eval 1 = 1
  | 0 => by simp [legendre]
  | 1 => by simp [legendre]
  | k + 2 => by
    have := congrArg (eval 1) (leg_rec k)
    simp [leg_one (k + 1), leg_one k] at this
    have h : ((k : ℝ) + 2) ≠ 0 := by positivity
    apply mul_left_cancel₀ h
    linear_combination this

theorem leg_neg_one : ∀ k, (legendre k).eval (-1) = (-1) ^ k
  | 0 => by simp [legendre]
  | 1 => by simp [legendre]
  | k + 2 => by
    have := congrArg (eval (-1)) (leg_rec k)
    simp [leg_neg_one (k + 1), leg_neg_one k] at this
    have h : ((k : ℝ) + 2) ≠ 0 := by positivity
    apply mul_left_cancel₀ h
    rw [this]
    ring

theorem leg_degree_le : ∀ k, (legendre k).natDegree ≤ k
  | 0 => by simp [legendre]
  | 1 => by simp [legendre]
  | k + 2 => by
    rw [legendre]
    refine (natDegree_sub_le _ _).trans (max_le ?_ ?_)
    · refine natDegree_mul_le.trans ?_
      have h1 := leg_degree_le (k + 1)
      have h2 : (C ((2 * (k : ℝ) + 3) / (k + 2)) * X).natDegree ≤ 1 := (natDegree_C_mul_le _ _).trans natDegree_X_le
      omega
    · exact (natDegree_C_mul_le _ _).trans ((leg_degree_le k).trans (by omega))

theorem leg_coeff_pos : ∀ k, 0 < (legendre k).coeff k
  | 0 => by simp [legendre]
  | 1 => by simp [legendre]
  | k + 2 => by
    have h1 := leg_coeff_pos (k + 1)
    have h2 : (legendre k).coeff (k + 2) = 0 := coeff_eq_zero_of_natDegree_lt (by have := leg_degree_le k; omega)
    rw [legendre, coeff_sub, coeff_C_mul, h2, mul_assoc, coeff_C_mul, mul_comm X, coeff_mul_X]
    have : (0 : ℝ) < (2 * (k : ℝ) + 3) / (k + 2) := by positivity
    nlinarith [mul_pos this h1]

/-- Legendre polynomials of different degrees are independent. -/
theorem leg_independent (m : ℕ) (c : ℕ → ℝ) (h : ∑ k ∈ range m, C (c k) * legendre k = 0) : ∀ k < m, c k = 0 := by
  induction m with
  | zero => intro k hk; omega
  | succ m ih =>
    have hm : c m = 0 := by
      have := congrArg (fun p => coeff p m) h
      simp only [sum_range_succ, coeff_add, finsetSum_coeff, coeff_C_mul, coeff_zero] at this
      rw [sum_eq_zero, zero_add] at this
      · exact (mul_eq_zero.1 this).resolve_right (leg_coeff_pos m).ne'
      · intro k hk
        rw [coeff_eq_zero_of_natDegree_lt ((leg_degree_le k).trans_lt (mem_range.1 hk)), mul_zero]
    intro k hk
    rcases Nat.lt_succ_iff_lt_or_eq.1 hk with hk | rfl
    · refine ih ?_ k hk
      rw [sum_range_succ, hm] at h
      simpa using h
    · exact hm

/-- `D1` holds the coefficients of the derivatives. -/
theorem sum_D1 : ∀ (k n : ℕ), k ≤ n → ∑ i ∈ range (n + 1), C (D1 i k) * legendre i = derivative (legendre k)
  | 0, n, _ => by
    rw [sum_eq_zero fun i _ => by simp [D1]]
    simp [legendre]
  | 1, n, h => by
    rw [sum_eq_single 0]
    · simp [D1, legendre]
    · intro i _ hi
      simp [D1, hi]
    · simp
  | k + 2, n, h => by
    have h1 := sum_D1 k n (by omega)
    have h2 := leg_deriv_sub k
    have h3 : ∀ i, D1 i (k + 2) = D1 i k + if i = k + 1 then 2 * (k : ℝ) + 3 else 0 := fun i => by
      have ho : Odd (i + (k + 2)) ↔ Odd (i + k) := by rw [← add_assoc, Nat.odd_add]; simp
      unfold D1
      simp only [ho]
      rcases lt_trichotomy i (k + 1) with hi | rfl | hi
      · rcases Nat.lt_succ_iff_lt_or_eq.1 hi with hi' | rfl
        · simp [hi', hi.ne, show i < k + 2 by omega]
        · simp [← two_mul]
      · simp [show Odd (k + 1 + k) from ⟨k, by ring⟩]
        ring
      · simp [hi.ne', show ¬ i < k + 2 by omega, show ¬ i < k by omega]
    simp only [h3, C_add, add_mul, sum_add_distrib, h1]
    rw [sum_eq_single (k + 1) (fun i _ hi => by simp [hi]) fun hi => absurd (mem_range.2 (by omega)) hi, if_pos rfl]
    simp only [C_add, C_mul, C_ofNat2, C_ofNat3, map_natCast]
    linear_combination -h2

/-- The integral of a derivative. -/
theorem integral_derivative (p : ℝ[X]) (a b : ℝ) : ∫ x in a..b, (derivative p).eval x = p.eval b - p.eval a :=
  intervalIntegral.integral_eq_sub_of_hasDerivAt (fun x _ => p.hasDerivAt x) (Polynomial.continuous (derivative p) |>.intervalIntegrable _ _)

theorem integral_leg (k : ℕ) : ∫ x in (-1 : ℝ)..1, (legendre (k + 1)).eval x = 0 := by
  have h := integral_derivative (legendre (k + 2) - legendre k) (-1) 1
  rw [derivative_sub, leg_deriv_sub] at h
  simp only [eval_mul, eval_add, eval_natCast, eval_ofNat, eval_sub, leg_one, leg_neg_one, intervalIntegral.integral_const_mul] at h
  have : (2 * (k : ℝ) + 3) ≠ 0 := by positivity
  refine (mul_eq_zero.1 (h.trans ?_)).resolve_left this
  ring

theorem integral_X_leg (k : ℕ) : ∫ x in (-1 : ℝ)..1, x * (legendre (k + 2)).eval x = 0 := by
  have h : ∀ x, x * (legendre (k + 2)).eval x = (((k : ℝ) + 3) * (legendre (k + 3)).eval x + (k + 2) * (legendre (k + 1)).eval x) / (2 * k + 5) := fun x => by
    have := congrArg (eval x) (leg_rec (k + 1))
    simp at this
    have h0 : (2 * (k : ℝ) + 5) ≠ 0 := by positivity
    field_simp
    linear_combination -this
  simp only [h]
  rw [intervalIntegral.integral_div, intervalIntegral.integral_add, intervalIntegral.integral_const_mul, intervalIntegral.integral_const_mul, integral_leg, integral_leg]
  · simp
  all_goals exact (Polynomial.continuous _).const_mul _ |>.intervalIntegrable _ _

end SpectralDNS.Leg

import Verif.Model.LUsolve
import Verif.Spec.Chebyshev

/-!
# Lemmas on LUsolve
-/

namespace SpectralDNS.LUsolve

open Polynomial Polynomial.Chebyshev Finset SpectralDNS.Spec.Cheb

theorem down_inv {σ : Type*} (P : ℕ → σ → Prop) (f : ℕ → σ → σ) (n : ℕ) (s : σ) (h0 : P n s)
    (hs : ∀ i < n, ∀ s, P (i + 1) s → P i (f (i + 1) s)) : P 0 (down n f s) := by
  induction n generalizing s with
  | zero => exact h0
  | succ n ih => exact ih _ (hs n (by omega) s h0) fun i hi s h => hs i (by omega) s h

/-- The coefficients of the space, continued by zero. -/
def ext (N : ℕ) (v : ℕ → ℂ) (j : ℕ) : ℂ := if j < N - 2 then v j else 0

/-- `v_q + v_{q+2} + ...` -/
def tail (N : ℕ) (v : ℕ → ℂ) (q : ℕ) : ℂ := ∑ j ∈ range (N - 2), if q ≤ j ∧ (j + q) % 2 = 0 then v j else 0

theorem tail_eq (N : ℕ) (v : ℕ → ℂ) (q : ℕ) : tail N v q = ext N v q + tail N v (q + 2) := by
  unfold tail ext
  have h : (if q < N - 2 then v q else 0) = ∑ j ∈ range (N - 2), if j = q then v j else 0 := by
    rw [sum_ite_eq']; simp
  rw [h, ← sum_add_distrib]
  refine sum_congr rfl fun j _ => ?_
  by_cases h1 : j = q
  · subst h1
    rw [if_pos (by omega), if_pos rfl, if_neg (by omega), add_zero]
  · rw [if_neg h1, zero_add]
    by_cases h2 : q ≤ j ∧ (j + q) % 2 = 0
    · rw [if_pos h2, if_pos (by omega)]
    · rw [if_neg h2, if_neg (by omega)]

theorem tail_zero (N : ℕ) (v : ℕ → ℂ) (q : ℕ) (h : N - 2 ≤ q) : tail N v q = 0 :=
  sum_eq_zero fun j hj => if_neg (by have := mem_range.1 hj; omega)

theorem ext_lt (N : ℕ) (v : ℕ → ℂ) (j : ℕ) (h : j < N - 2) : ext N v j = v j := if_pos h

theorem ext_ge (N : ℕ) (v : ℕ → ℂ) (j : ℕ) (h : N - 2 ≤ j) : ext N v j = 0 := if_neg (by omega)

/-- Chebyshev coefficients of the derivative. -/
noncomputable def dcoef (N : ℕ) (v : ℕ → ℂ) (n : ℕ) : ℂ :=
  if n = 0 then -2 * tail N v 1 else -2 * ((n : ℂ) + 1) * ext N v (n - 1) - 4 * tail N v (n + 1)

/-- The derivative of one basis function. -/
theorem derivative_phi (j : ℕ) : derivative (T ℂ (j : ℤ) - T ℂ ((j + 2 : ℕ) : ℤ)) =
    (-2 * ((j : ℂ) + 2)) • T ℂ ((j + 1 : ℕ) : ℤ) - ∑ n ∈ range j, (if (n + j) % 2 = 1 then (if n = 0 then 2 else 4 : ℂ) else 0) • T ℂ (n : ℤ) := by
  induction j using Nat.strong_induction_on with
  | _ j ih =>
    rcases j with _ | _ | j
    · simp only [derivative_sub, T_derivative_eq_U]
      rw [smul_eq_C_mul]
      norm_num
      rw [map_ofNat]; ring
    · simp only [derivative_sub, T_derivative_eq_U]
      rw [smul_eq_C_mul]
      simp
      norm_num [U_two, T_two]
      rw [show Polynomial.C (2 : ℂ) = 2 from map_ofNat Polynomial.C 2, smul_eq_C_mul, show Polynomial.C (2 : ℂ) = 2 from map_ofNat Polynomial.C 2]
      ring
    · have h := ih j (by omega)
      have e : ∑ n ∈ range (j + 1 + 1), (if (n + (j + 1 + 1)) % 2 = 1 then (if n = 0 then 2 else 4 : ℂ) else 0) • T ℂ (n : ℤ) =
          ∑ n ∈ range j, (if (n + j) % 2 = 1 then (if n = 0 then 2 else 4 : ℂ) else 0) • T ℂ (n : ℤ) + (4 : ℂ) • T ℂ ((j + 1 : ℕ) : ℤ) := by
        rw [sum_range_succ, sum_range_succ]
        rw [if_neg (by omega : ¬ (j + (j + 1 + 1)) % 2 = 1), zero_smul, add_zero, if_pos (by omega : (j + 1 + (j + 1 + 1)) % 2 = 1), if_neg (by omega)]
        congr 1
        refine sum_congr rfl fun n _ => ?_
        have : (n + (j + 1 + 1)) % 2 = (n + j) % 2 := by omega
        rw [this]
      rw [e]
      have hs : ∑ n ∈ range j, (if (n + j) % 2 = 1 then (if n = 0 then 2 else 4 : ℂ) else 0) • T ℂ (n : ℤ) =
          (-2 * ((j : ℂ) + 2)) • T ℂ ((j + 1 : ℕ) : ℤ) - derivative (T ℂ (j : ℤ) - T ℂ ((j + 2 : ℕ) : ℤ)) := by
        rw [h]; ring
      rw [hs]
      simp only [derivative_sub, T_derivative_eq_U]
      have h1 := two_mul_T_eq_U_sub_U ℂ ((j : ℤ) - 1)
      have h3 := two_mul_T_eq_U_sub_U ℂ ((j : ℤ) + 1)
      rw [show (j : ℤ) - 1 + 2 = j + 1 by ring] at h1
      rw [show (j : ℤ) + 1 + 2 = j + 3 by ring] at h3
      simp only [smul_eq_C_mul, map_mul, map_add, map_neg, map_natCast, map_ofNat]
      push_cast
      rw [show (j : ℤ) + 1 + 1 - 1 = j + 1 by ring, show (j : ℤ) + 1 + 1 + 2 - 1 = j + 3 by ring, show (j : ℤ) + 2 - 1 = j + 1 by ring,
        show (j : ℤ) + 1 + 1 + 1 = j + 3 by ring]
      linear_combination (-(j : ℂ[X])) * h1 + ((j : ℂ[X]) + 4) * h3

theorem derivative_dirichlet (N : ℕ) (hN : 2 ≤ N) (v : ℕ → ℂ) : derivative (dirichlet N v) = series N (dcoef N v) := by
  unfold dirichlet series
  rw [derivative_sum]
  simp_rw [derivative_smul, derivative_phi]
  have e : ∀ n ∈ range N, dcoef N v n • T ℂ (n : ℤ) =
      ∑ j ∈ range (N - 2), (v j * ((if n = j + 1 then -2 * ((j : ℂ) + 2) else 0) - (if n < j then (if (n + j) % 2 = 1 then (if n = 0 then 2 else 4 : ℂ) else 0) else 0))) • T ℂ (n : ℤ) := by
    intro n hn
    rw [← sum_smul]
    congr 1
    simp_rw [mul_sub]
    rw [sum_sub_distrib]
    unfold dcoef tail
    rcases n with _ | n
    · have hz : ∑ j ∈ range (N - 2), (v j * if 0 = j + 1 then -2 * ((j : ℂ) + 2) else 0) = 0 :=
        sum_eq_zero fun j _ => by rw [if_neg (by omega), mul_zero]
      rw [if_pos rfl, mul_sum, hz, zero_sub, ← sum_neg_distrib]
      refine sum_congr rfl fun j _ => ?_
      by_cases h : 1 ≤ j ∧ (j + 1) % 2 = 0
      · rw [if_pos h, if_pos (by omega), if_pos (by omega), if_pos rfl]; ring
      · rw [if_neg h]
        by_cases h0 : 0 < j
        · rw [if_pos h0, if_neg (by omega)]; ring
        · rw [if_neg h0]; ring
    · rw [if_neg (by omega), mul_sum]
      congr 1
      · unfold ext
        rw [Nat.add_sub_cancel]
        have : ∀ j ∈ range (N - 2), (v j * if n + 1 = j + 1 then -2 * ((j : ℂ) + 2) else 0) = if n = j then v j * (-2 * ((j : ℂ) + 2)) else 0 := by
          intro j _
          by_cases h : n = j
          · rw [if_pos (by omega), if_pos h]
          · rw [if_neg (by omega), if_neg h, mul_zero]
        rw [sum_congr rfl this, sum_ite_eq]
        by_cases h : n < N - 2
        · rw [if_pos h, if_pos (mem_range.2 h)]; push_cast; ring
        · rw [if_neg h, if_neg (fun hc => h (mem_range.1 hc)), mul_zero]
      · refine sum_congr rfl fun j _ => ?_
        by_cases h : n + 1 + 1 ≤ j ∧ (j + (n + 1 + 1)) % 2 = 0
        · rw [if_pos h, if_pos (by omega), if_pos (by omega), if_neg (by omega)]; ring
        · rw [if_neg h]
          by_cases h0 : n + 1 < j
          · rw [if_pos h0, if_neg (by omega)]; ring
          · rw [if_neg h0]; ring
  rw [sum_congr rfl e, sum_comm]
  refine sum_congr rfl fun j hj => ?_
  have hj := mem_range.1 hj
  simp_rw [mul_smul]
  rw [← smul_sum]
  congr 1
  simp_rw [sub_smul]
  rw [sum_sub_distrib]
  congr 1
  · have : ∀ n ∈ range N, (if n = j + 1 then -2 * ((j : ℂ) + 2) else 0) • T ℂ (n : ℤ) = if n = j + 1 then (-2 * ((j : ℂ) + 2)) • T ℂ (n : ℤ) else 0 := by
      intro n _; split_ifs <;> simp
    rw [sum_congr rfl this, sum_ite_eq', if_pos (mem_range.2 (by omega)), mul_smul]
  · have : ∀ n ∈ range N, (if n < j then (if (n + j) % 2 = 1 then (if n = 0 then 2 else 4 : ℂ) else 0) else 0) • T ℂ (n : ℤ) =
        if n ∈ range j then (if (n + j) % 2 = 1 then (if n = 0 then 2 else 4 : ℂ) else 0) • T ℂ (n : ℤ) else 0 := by
      intro n _
      by_cases h : n < j
      · rw [if_pos h, if_pos (mem_range.2 h)]
      · rw [if_neg h, if_neg (fun hc => h (mem_range.1 hc)), zero_smul]
    rw [sum_congr rfl this, sum_ite_mem, inter_eq_right.2 (range_subset_range.2 (by omega))]

end SpectralDNS.LUsolve

import Mathlib.Analysis.SpecialFunctions.Trigonometric.Chebyshev.ChebyshevGauss
import Mathlib.Analysis.SpecialFunctions.Integrals.Basic
import Mathlib.MeasureTheory.Integral.IntervalIntegral.FundThmCalculus
import Mathlib.Algebra.Polynomial.Sequence
import Mathlib.Analysis.Calculus.Deriv.Polynomial
import Verif.Model.Utilities

/-!
# Chebyshev expansions and their integrals
-/

namespace SpectralDNS.Utilities

open Polynomial Polynomial.Chebyshev Finset

/-- A polynomial of degree less than `m` is a combination of the first `m` Chebyshev polynomials. -/
theorem exists_chebyshev (m : ℕ) (P : ℝ[X]) (hP : P.degree < m) : ∃ c : ℕ → ℝ, P = ∑ n ∈ range m, c n • T ℝ (n : ℤ) := by
  have hmem : P ∈ degreeLT ℝ m := by rwa [mem_degreeLT]
  rw [← Sequence.span_degreeLT (chebyshevTsequence ℝ) (by simp), show Set.Iio m = Finset.range m by simp,
    Submodule.mem_span_image_finset_iff_exists_fun'] at hmem
  obtain ⟨c, rfl⟩ := hmem
  exact ⟨c, rfl⟩

/-- Integral of a polynomial over [-1, 1]. -/
noncomputable def integ (P : ℝ[X]) : ℝ := ∫ x in (-1 : ℝ)..1, P.eval x

theorem integ_derivative (P : ℝ[X]) : integ (derivative P) = P.eval 1 - P.eval (-1) := by
  unfold integ
  refine intervalIntegral.integral_eq_sub_of_hasDerivAt (fun x _ => P.hasDerivAt x) ?_
  exact (Polynomial.continuous _).intervalIntegrable _ _

theorem integ_sum {ι : Type*} (s : Finset ι) (P : ι → ℝ[X]) : integ (∑ i ∈ s, P i) = ∑ i ∈ s, integ (P i) := by
  unfold integ
  simp_rw [eval_finsetSum]
  rw [intervalIntegral.integral_finsetSum]
  intro i _
  exact (Polynomial.continuous _).intervalIntegrable _ _

theorem integ_smul (c : ℝ) (P : ℝ[X]) : integ (c • P) = c * integ P := by
  unfold integ
  simp_rw [eval_smul, smul_eq_mul, intervalIntegral.integral_const_mul]

theorem integ_add (P Q : ℝ[X]) : integ (P + Q) = integ P + integ Q := by
  unfold integ
  simp_rw [eval_add]
  rw [intervalIntegral.integral_add] <;> exact (Polynomial.continuous _).intervalIntegrable _ _

/-- Integral of a Chebyshev polynomial over [-1, 1]. -/
theorem integ_T (n : ℕ) : integ (T ℝ (n : ℤ)) = if n % 2 = 1 then 0 else 2 / (1 - (n : ℝ) ^ 2) := by
  rcases n with _ | _ | n
  · norm_num [integ]
  · norm_num [integ]
  · -- T_{n+2} = (T'_{n+3}/(n+3) - T'_{n+1}/(n+1))/2
    have e : T ℝ ((n + 1 + 1 : ℕ) : ℤ) =
        ((1 / (2 * ((n : ℝ) + 3))) • derivative (T ℝ ((n : ℤ) + 3))) + ((-(1 / (2 * ((n : ℝ) + 1)))) • derivative (T ℝ ((n : ℤ) + 1))) := by
      have h := two_mul_T_eq_U_sub_U ℝ (n : ℤ)
      have h3 : derivative (T ℝ ((n : ℤ) + 3)) = ((n : ℝ) + 3) • U ℝ ((n : ℤ) + 2) := by
        rw [T_derivative_eq_U, Polynomial.smul_eq_C_mul]
        push_cast
        rw [show (n : ℤ) + 3 - 1 = n + 2 by ring, map_add, map_natCast, map_ofNat]
      have h1 : derivative (T ℝ ((n : ℤ) + 1)) = ((n : ℝ) + 1) • U ℝ (n : ℤ) := by
        rw [T_derivative_eq_U, Polynomial.smul_eq_C_mul]
        push_cast
        rw [show (n : ℤ) + 1 - 1 = n by ring, map_add, map_natCast, map_one]
      rw [h3, h1, smul_smul, smul_smul]
      have : ((n + 1 + 1 : ℕ) : ℤ) = (n : ℤ) + 2 := by push_cast; ring
      rw [this]
      have a1 : 1 / (2 * ((n : ℝ) + 3)) * ((n : ℝ) + 3) = 1 / 2 := by field_simp
      have a2 : -(1 / (2 * ((n : ℝ) + 1))) * ((n : ℝ) + 1) = -(1 / 2) := by field_simp
      rw [a1, a2]
      have : T ℝ ((n : ℤ) + 2) = (1 / 2 : ℝ) • ((2 : ℝ[X]) * T ℝ ((n : ℤ) + 2)) := by
        rw [Polynomial.smul_eq_C_mul, ← mul_assoc, show (2 : ℝ[X]) = Polynomial.C 2 from (map_ofNat Polynomial.C 2).symm, ← map_mul]
        norm_num
      rw [this, h, smul_sub, neg_smul, sub_eq_add_neg]
    rw [e, integ_add, integ_smul, integ_smul, integ_derivative, integ_derivative]
    simp only [T_eval_one, T_eval_neg_one]
    rw [show (n : ℤ) + 3 = ((n + 1 : ℕ) : ℤ) + 2 by push_cast; ring, show (n : ℤ) + 1 = ((n + 1 : ℕ) : ℤ) by push_cast; ring]
    rw [Int.negOnePow_add]
    rcases Nat.mod_two_eq_zero_or_one n with h | h
    · have hev : Odd (((n + 1 : ℕ) : ℤ)) := by
        rw [Int.odd_coe_nat, Nat.odd_iff]; omega
      rw [Int.negOnePow_odd _ hev]
      have : ¬ (n + 1 + 1) % 2 = 1 := by omega
      rw [if_neg this]
      have h2 : Int.negOnePow 2 = 1 := by decide
      rw [h2]
      push_cast
      have hn : (1 - ((n : ℝ) + 1 + 1) ^ 2) ≠ 0 := by
        have : (0 : ℝ) ≤ n := n.cast_nonneg
        nlinarith
      norm_num
      field_simp
      ring
    · have hev : Even (((n + 1 : ℕ) : ℤ)) := by
        rw [Int.even_coe_nat, Nat.even_iff]; omega
      rw [Int.negOnePow_even _ hev]
      have : (n + 1 + 1) % 2 = 1 := by omega
      rw [if_pos this]
      have h2 : Int.negOnePow 2 = 1 := by decide
      rw [h2]
      norm_num

/-! ## Linearity of the two rules -/

theorem dct1_add (n : ℕ) (c d : ℕ → ℝ) (k : ℕ) : dct1 n (fun j => c j + d j) k = dct1 n c k + dct1 n d k := by
  unfold dct1
  simp_rw [add_mul, sum_add_distrib]
  ring

theorem dct1_smul (n : ℕ) (a : ℝ) (c : ℕ → ℝ) (k : ℕ) : dct1 n (fun j => a * c j) k = a * dct1 n c k := by
  unfold dct1
  simp_rw [mul_assoc, ← mul_sum]
  ring

theorem dxGL_add (n : ℕ) (c d : ℕ → ℝ) : dxGL n (fun j => c j + d j) = dxGL n c + dxGL n d := by
  unfold dxGL
  simp only [dct1_add, add_div, add_mul, sum_add_distrib]

theorem dxGL_smul (n : ℕ) (a : ℝ) (c : ℕ → ℝ) : dxGL n (fun j => a * c j) = a * dxGL n c := by
  unfold dxGL
  simp only [dct1_smul, mul_div_assoc, mul_assoc, ← mul_sum]

theorem dxGC_add (M : ℕ) (c d : ℕ → ℝ) : dxGC M (fun j => c j + d j) = dxGC M c + dxGC M d := by
  unfold dxGC
  simp only [add_mul, sum_add_distrib]

theorem dxGC_smul (M : ℕ) (a : ℝ) (c : ℕ → ℝ) : dxGC M (fun j => a * c j) = a * dxGC M c := by
  unfold dxGC
  simp only [mul_assoc, ← mul_sum]

/-- A rule that is linear and exact on the first `m` Chebyshev polynomials is exact on all polynomials of degree less than `m`. -/
theorem exact_of_T (rule : (ℕ → ℝ) → ℝ) (hadd : ∀ c d : ℕ → ℝ, rule (fun j => c j + d j) = rule c + rule d)
    (hsmul : ∀ (a : ℝ) (c : ℕ → ℝ), rule (fun j => a * c j) = a * rule c) (x : ℕ → ℝ) (m : ℕ)
    (hT : ∀ n < m, rule (fun j => (T ℝ (n : ℤ)).eval (x j)) = integ (T ℝ (n : ℤ))) (P : ℝ[X]) (hP : P.degree < m) :
    rule (fun j => P.eval (x j)) = integ P := by
  obtain ⟨c, rfl⟩ := exists_chebyshev m P hP
  rw [integ_sum]
  simp_rw [eval_finsetSum, eval_smul, smul_eq_mul, integ_smul]
  have : ∀ s : Finset ℕ, s ⊆ range m →
      rule (fun j => ∑ n ∈ s, c n * (T ℝ (n : ℤ)).eval (x j)) = ∑ n ∈ s, c n * integ (T ℝ (n : ℤ)) := by
    intro s
    classical
    refine Finset.induction_on s (fun _ => ?_) (fun a s ha ih hs => ?_)
    · have := hsmul 0 (fun _ => 0)
      simpa using this
    · simp_rw [sum_insert ha]
      rw [hadd, hsmul, ih ((subset_insert _ _).trans hs), hT a (mem_range.1 (hs (mem_insert_self _ _)))]
  exact this _ (Subset.refl _)

/-! ## Gauss points -/

/-- The Gauss points of the Chebyshev basis. -/
noncomputable def xGC (M j : ℕ) : ℝ := Real.cos (Real.pi * (j + 1 / 2) / M)

theorem sum_T_xGC (M : ℕ) (hM : M ≠ 0) (k : ℤ) (hk : ¬ (2 * M : ℤ) ∣ k) : ∑ j ∈ range M, (T ℝ k).eval (xGC M j) = 0 := by
  have h := sumZeroes_T_of_not_dvd (n := M) hk
  unfold sumZeroes at h
  have hpi : Real.pi / M ≠ 0 := div_ne_zero Real.pi_ne_zero (by exact_mod_cast hM)
  have h := (mul_eq_zero.1 h).resolve_left hpi
  rw [← h]
  refine sum_congr rfl fun j _ => ?_
  unfold xGC
  congr 2
  field_simp

theorem two_mul_T_T (m k : ℤ) (x : ℝ) : 2 * ((T ℝ m).eval x * (T ℝ k).eval x) = (T ℝ (m + k)).eval x + (T ℝ (m - k)).eval x := by
  have h := congrArg (Polynomial.eval x) (T_mul_T ℝ m k)
  simpa [mul_assoc] using h

theorem sum_TT_xGC (M m k : ℕ) (hm : m < M) (hk : k < M) :
    ∑ j ∈ range M, (T ℝ (m : ℤ)).eval (xGC M j) * (T ℝ (k : ℤ)).eval (xGC M j) =
      if m = k then (if k = 0 then (M : ℝ) else M / 2) else 0 := by
  have hM : M ≠ 0 := by omega
  have h : 2 * ∑ j ∈ range M, (T ℝ (m : ℤ)).eval (xGC M j) * (T ℝ (k : ℤ)).eval (xGC M j) =
      ∑ j ∈ range M, (T ℝ ((m : ℤ) + k)).eval (xGC M j) + ∑ j ∈ range M, (T ℝ ((m : ℤ) - k)).eval (xGC M j) := by
    rw [mul_sum, ← sum_add_distrib]
    exact sum_congr rfl fun j _ => two_mul_T_T _ _ _
  by_cases hmk : m = k
  · subst hmk
    rw [if_pos rfl]
    by_cases h0 : m = 0
    · subst h0
      simp
    · rw [if_neg h0]
      rw [sum_T_xGC M hM _ (by
        intro hd
        have := Int.le_of_dvd (by omega) hd
        omega)] at h
      simp at h
      linarith
  · rw [if_neg hmk]
    rw [sum_T_xGC M hM _ (by
        intro hd
        have := Int.le_of_dvd (by omega) hd
        omega), sum_T_xGC M hM _ (by
        intro hd
        have := Int.le_of_dvd (a := (2 * M : ℤ)) (b := |(m : ℤ) - k|) (by
          rw [abs_pos]; omega) ((dvd_abs _ _).2 hd)
        rcases abs_cases ((m : ℤ) - k) with h | h <;> omega)] at h
    linarith

theorem cos_eq_T_xGC (M j k : ℕ) : Real.cos (Real.pi * (k + 1) * (j + 1 / 2) / M) = (T ℝ ((k + 1 : ℕ) : ℤ)).eval (xGC M j) := by
  unfold xGC
  rw [T_real_cos]
  congr 1
  push_cast
  ring

theorem dxGC_T (M n : ℕ) (hn : n < M) : dxGC M (fun j => (T ℝ (n : ℤ)).eval (xGC M j)) = integ (T ℝ (n : ℤ)) := by
  have hM : (M : ℝ) ≠ 0 := by
    have : 0 < M := by omega
    positivity
  unfold dxGC dct3
  simp only [cos_eq_T_xGC]
  rw [integ_T]
  obtain ⟨M, rfl⟩ : ∃ M', M = M' + 1 := ⟨M - 1, by omega⟩
  set d : ℕ → ℝ := fun i => if i % 2 = 0 then (2 / ((M + 1 : ℕ) : ℝ)) / (if i = 0 then 1 else 1 - (i : ℝ) * i) else 0 with hd
  have e : ∀ j, (T ℝ (n : ℤ)).eval (xGC (M + 1) j) * (d 0 + 2 * ∑ k ∈ range (M + 1 - 1), d (k + 1) * (T ℝ ((k + 1 : ℕ) : ℤ)).eval (xGC (M + 1) j)) =
      d 0 * ((T ℝ (n : ℤ)).eval (xGC (M + 1) j) * (T ℝ ((0 : ℕ) : ℤ)).eval (xGC (M + 1) j)) +
        ∑ k ∈ range M, 2 * d (k + 1) * ((T ℝ (n : ℤ)).eval (xGC (M + 1) j) * (T ℝ ((k + 1 : ℕ) : ℤ)).eval (xGC (M + 1) j)) := by
    intro j
    rw [mul_add, mul_sum, mul_sum, Nat.add_sub_cancel]
    congr 1
    · simp [mul_comm]
    · exact sum_congr rfl fun k _ => by ring
  refine (sum_congr rfl fun j _ => e j).trans ?_
  rw [sum_add_distrib, ← mul_sum, sum_comm, sum_TT_xGC _ _ _ hn (by omega)]
  have e2 : ∀ k ∈ range M, ∑ j ∈ range (M + 1), 2 * d (k + 1) * ((T ℝ (n : ℤ)).eval (xGC (M + 1) j) * (T ℝ ((k + 1 : ℕ) : ℤ)).eval (xGC (M + 1) j)) =
      if n = k + 1 then d n * ((M + 1 : ℕ) : ℝ) else 0 := by
    intro k hk
    rw [← mul_sum, sum_TT_xGC _ _ _ hn (by have := mem_range.1 hk; omega)]
    rw [if_neg (Nat.succ_ne_zero k)]
    split_ifs with h
    · rw [h]; ring
    · ring
  rw [sum_congr rfl e2]
  rcases n with _ | n
  · simp [hd]
    field_simp
  · simp only [Nat.add_right_cancel_iff, Nat.succ_ne_zero, if_false, mul_zero, zero_add]
    rw [sum_ite_eq, if_pos (mem_range.2 (by omega))]
    simp only [hd]
    rcases Nat.mod_two_eq_zero_or_one (n + 1) with h | h
    · rw [if_pos h, if_neg (by omega), if_neg (by omega)]
      rw [pow_two, div_right_comm, div_mul_cancel₀ _ hM]
    · rw [if_neg (by omega), if_pos h, zero_mul]

/-! ## Gauss-Lobatto points -/

/-- The Gauss-Lobatto points of the Chebyshev basis with `n + 2` points. -/
noncomputable def xGL (n j : ℕ) : ℝ := Real.cos (Real.pi * j / (n + 1))

theorem T_xGL (n j : ℕ) (k : ℤ) : (T ℝ k).eval (xGL n j) = Real.cos (k * (Real.pi * j / (n + 1))) := T_real_cos _ _

theorem trap_T (n : ℕ) (p : ℤ) : ∑ j ∈ range (n + 1), ((T ℝ p).eval (xGL n j) + (T ℝ p).eval (xGL n (j + 1))) =
    if (2 * (n + 1 : ℕ) : ℤ) ∣ p then 2 * ((n : ℝ) + 1) else 0 := by
  have hn : ((n : ℝ) + 1) ≠ 0 := by positivity
  split_ifs with h
  · obtain ⟨l, rfl⟩ := h
    have : ∀ j : ℕ, (T ℝ (2 * (n + 1 : ℕ) * l)).eval (xGL n j) = 1 := by
      intro j
      rw [T_xGL]
      have : (((2 * (n + 1 : ℕ) * l : ℤ)) : ℝ) * (Real.pi * j / (n + 1)) = ((l * j : ℤ) : ℝ) * (2 * Real.pi) := by
        push_cast
        field_simp
      rw [this, Real.cos_int_mul_two_pi]
    simp_rw [this]
    simp
    ring
  · have h0 := sum_T_xGC (n + 1) (by omega) p (by exact_mod_cast h)
    have : ∀ j : ℕ, (T ℝ p).eval (xGL n j) + (T ℝ p).eval (xGL n (j + 1)) = 2 * Real.cos (p * Real.pi / (2 * (n + 1))) * (T ℝ p).eval (xGC (n + 1) j) := by
      intro j
      rw [T_xGL, T_xGL, xGC, T_real_cos, Real.cos_add_cos]
      have e1 : ((p : ℝ) * (Real.pi * j / (n + 1)) + p * (Real.pi * ((j + 1 : ℕ) : ℝ) / (n + 1))) / 2 = p * (Real.pi * (j + 1 / 2) / ((n + 1 : ℕ) : ℝ)) := by
        push_cast
        field_simp
        ring
      have e2 : ((p : ℝ) * (Real.pi * j / (n + 1)) - p * (Real.pi * ((j + 1 : ℕ) : ℝ) / (n + 1))) / 2 = -(p * Real.pi / (2 * (n + 1))) := by
        push_cast
        field_simp
        ring
      rw [e1, e2, Real.cos_neg]
      ring
    simp_rw [this]
    rw [← mul_sum, h0, mul_zero]

theorem dct1_eq_trap (n : ℕ) (c : ℕ → ℝ) (k : ℕ) :
    dct1 n c k = ∑ j ∈ range (n + 1), (c j * (T ℝ (k : ℤ)).eval (xGL n j) + c (j + 1) * (T ℝ (k : ℤ)).eval (xGL n (j + 1))) := by
  have hn : ((n : ℝ) + 1) ≠ 0 := by positivity
  rw [sum_add_distrib, sum_range_succ', sum_range_succ (fun j => c (j + 1) * (T ℝ (k : ℤ)).eval (xGL n (j + 1)))]
  have h0 : (T ℝ (k : ℤ)).eval (xGL n 0) = 1 := by rw [T_xGL]; simp
  have h1 : (T ℝ (k : ℤ)).eval (xGL n (n + 1)) = (-1) ^ k := by
    rw [T_xGL, ← Real.cos_nat_mul_pi]
    congr 1
    push_cast
    field_simp
  have h2 : ∀ j : ℕ, Real.cos (Real.pi * (j + 1) * k / (n + 1)) = (T ℝ (k : ℤ)).eval (xGL n (j + 1)) := by
    intro j
    rw [T_xGL]
    congr 1
    push_cast
    ring
  unfold dct1
  simp_rw [h2]
  rw [h0, h1]
  ring

theorem dct1_T (n m k : ℕ) (hm : m < n + 2) (hk : k < n + 2) :
    dct1 n (fun j => (T ℝ (m : ℤ)).eval (xGL n j)) k =
      if m = k then (if m = 0 ∨ m = n + 1 then 2 * ((n : ℝ) + 1) else (n : ℝ) + 1) else 0 := by
  rw [dct1_eq_trap]
  have h : 2 * ∑ j ∈ range (n + 1), ((T ℝ (m : ℤ)).eval (xGL n j) * (T ℝ (k : ℤ)).eval (xGL n j) + (T ℝ (m : ℤ)).eval (xGL n (j + 1)) * (T ℝ (k : ℤ)).eval (xGL n (j + 1))) =
      ∑ j ∈ range (n + 1), ((T ℝ ((m : ℤ) + k)).eval (xGL n j) + (T ℝ ((m : ℤ) + k)).eval (xGL n (j + 1))) +
        ∑ j ∈ range (n + 1), ((T ℝ ((m : ℤ) - k)).eval (xGL n j) + (T ℝ ((m : ℤ) - k)).eval (xGL n (j + 1))) := by
    rw [mul_sum, ← sum_add_distrib]
    refine sum_congr rfl fun j _ => ?_
    rw [mul_add, two_mul_T_T, two_mul_T_T]
    ring
  rw [trap_T, trap_T] at h
  have d1 : (2 * (n + 1 : ℕ) : ℤ) ∣ (m : ℤ) + k ↔ (m = 0 ∧ k = 0) ∨ (m = n + 1 ∧ k = n + 1) := by
    constructor
    · rintro ⟨l, hl⟩
      have : l = 0 ∨ l = 1 := by
        rcases lt_trichotomy l 0 with h | h | h
        · exfalso; push_cast at hl; nlinarith
        · exact Or.inl h
        · right
          by_contra hc
          have : 2 ≤ l := by omega
          push_cast at hl; nlinarith
      rcases this with rfl | rfl
      · left; omega
      · right; omega
    · rintro (⟨rfl, rfl⟩ | ⟨rfl, rfl⟩)
      · simp
      · exact ⟨1, by push_cast; ring⟩
  have d2 : (2 * (n + 1 : ℕ) : ℤ) ∣ (m : ℤ) - k ↔ m = k := by
    constructor
    · intro hd
      by_contra hc
      have := Int.le_of_dvd (a := (2 * (n + 1 : ℕ) : ℤ)) (b := |(m : ℤ) - k|) (by
          rw [abs_pos]; omega) ((dvd_abs _ _).2 hd)
      rcases abs_cases ((m : ℤ) - k) with h | h <;> omega
    · rintro rfl; simp
  simp only [d1, d2] at h
  by_cases hmk : m = k
  · subst hmk
    simp only [and_self, if_true] at h ⊢
    split_ifs at h ⊢ <;> linarith
  · rw [if_neg hmk]
    rw [if_neg (by omega), if_neg hmk] at h
    linarith

/-- The Gauss-Lobatto rule on a Chebyshev polynomial: the integral, except that the last one is counted twice. -/
theorem dxGL_T (n m : ℕ) (hm : m < n + 2) :
    dxGL n (fun j => (T ℝ (m : ℤ)).eval (xGL n j)) = (if m = n + 1 then 2 else 1) * integ (T ℝ (m : ℤ)) := by
  have hn : ((n : ℝ) + 1) ≠ 0 := by positivity
  unfold dxGL
  simp only
  have : ∀ k ∈ range (n + 2), dct1 n (fun j => (T ℝ (m : ℤ)).eval (xGL n j)) k / (((n + 2 : ℕ) : ℝ) - 1) * (if k % 2 = 1 then 0 else if k = 0 then 1 else 2 / (1 - (k : ℝ) ^ 2)) =
      if m = k then (if m = n + 1 then 2 else 1) * integ (T ℝ (m : ℤ)) else 0 := by
    intro k hk
    rw [dct1_T n m k hm (mem_range.1 hk), integ_T]
    have e : (((n + 2 : ℕ) : ℝ) - 1) = n + 1 := by push_cast; ring
    rw [e]
    by_cases hmk : m = k
    · subst hmk
      rw [if_pos rfl, if_pos rfl]
      rcases Nat.mod_two_eq_zero_or_one m with h | h
      · have h2 : ¬ m % 2 = 1 := by omega
        rw [if_neg h2, if_neg h2]
        by_cases h0 : m = 0
        · subst h0
          simp
          field_simp
        · rw [if_neg h0]
          by_cases h1 : m = n + 1
          · rw [if_pos (Or.inr h1), if_pos h1]
            field_simp
          · rw [if_neg (by tauto), if_neg h1]
            field_simp
      · rw [if_pos h, if_pos h]; simp
    · rw [if_neg hmk, if_neg hmk]; simp
  rw [sum_congr rfl this, sum_ite_eq, if_pos (mem_range.2 hm)]

end SpectralDNS.Utilities

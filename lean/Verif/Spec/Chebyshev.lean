import Mathlib.Analysis.SpecialFunctions.Trigonometric.Chebyshev.Orthogonality

/-!
# Expansions in Chebyshev polynomials and in Shen's bases
-/

namespace SpectralDNS.Spec.Cheb

open Polynomial Polynomial.Chebyshev Finset

/-- `Σ_{n<N} c_n T_n`. -/
noncomputable def series (N : ℕ) (c : ℕ → ℂ) : ℂ[X] := ∑ n ∈ range N, c n • T ℂ (n : ℤ)

/-- Element of Shen's Dirichlet space with `N` quadrature points: `Σ_{j<N-2} v_j (T_j - T_{j+2})`. -/
noncomputable def dirichlet (N : ℕ) (v : ℕ → ℂ) : ℂ[X] := ∑ j ∈ range (N - 2), v j • (T ℂ (j : ℤ) - T ℂ ((j + 2 : ℕ) : ℤ))

/-- Shen's Neumann basis function `T_k - (k/(k+2))² T_{k+2}`. -/
noncomputable def neumann (k : ℕ) : ℂ[X] := T ℂ (k : ℤ) - (((k : ℂ) / (k + 2)) ^ 2) • T ℂ ((k + 2 : ℕ) : ℤ)

/-- Integral over `[-1, 1]` with the Chebyshev weight `(1 - x²)^(-1/2)`. -/
noncomputable def weighted (p : ℂ[X]) : ℂ := ∫ x : ℝ, p.eval (x : ℂ) ∂measureT

/-- The functions of the Dirichlet space vanish at the walls. -/
theorem dirichlet_walls (N : ℕ) (v : ℕ → ℂ) : (dirichlet N v).eval 1 = 0 ∧ (dirichlet N v).eval (-1) = 0 := by
  constructor
  · norm_num [dirichlet, eval_finsetSum]
  · unfold dirichlet
    rw [eval_finsetSum]
    refine sum_eq_zero fun j _ => ?_
    rw [eval_smul, eval_sub, T_eval_neg_one, T_eval_neg_one]
    have : ((j + 2 : ℕ) : ℤ).negOnePow = (j : ℤ).negOnePow := by
      push_cast
      rw [Int.negOnePow_add]
      have : Int.negOnePow 2 = 1 := by decide
      rw [this, mul_one]
    rw [this]; simp

/-- The Neumann functions have zero slope at the walls. -/
theorem neumann_walls (k : ℕ) : (derivative (neumann k)).eval 1 = 0 ∧ (derivative (neumann k)).eval (-1) = 0 := by
  have hk : (k : ℂ) + 2 ≠ 0 := by
    have : ((k + 2 : ℕ) : ℂ) ≠ 0 := Nat.cast_ne_zero.2 (by omega)
    push_cast at this; exact this
  unfold neumann
  simp only [derivative_sub, derivative_smul, T_derivative_eq_U, eval_sub, eval_smul, eval_mul, eval_intCast]
  constructor
  · simp only [U_eval_one]
    push_cast
    simp only [smul_eq_mul]
    field_simp
    ring
  · simp only [U_eval_neg_one]
    have : (((k + 2 : ℕ) : ℤ) - 1).negOnePow = ((k : ℤ) - 1).negOnePow := by
      have h : (((k + 2 : ℕ) : ℤ) - 1) = ((k : ℤ) - 1) + 2 := by push_cast; ring
      rw [h, Int.negOnePow_add]
      have : Int.negOnePow 2 = 1 := by decide
      rw [this, mul_one]
    rw [this]
    push_cast
    simp only [smul_eq_mul]
    field_simp
    ring

end SpectralDNS.Spec.Cheb

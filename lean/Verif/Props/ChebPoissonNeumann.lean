import Verif.Lemmas.ChebPoissonNeumann

/-!
# C108: the stand-alone Neumann solver (sandbox/cheb_poisson_neumann.py)

The solver is exact on the functions it can represent.  Its forward transform is not: the inner product of the last basis function with itself
is computed with the wrong weight, because the array `ck` (line 46) is built and then not used.
-/

namespace SpectralDNS.Sandbox.Neumann

open Polynomial Polynomial.Chebyshev Real Finset MeasureTheory

/-- The inverse transform evaluates, at the points, a function that is flat at both ends and has mean zero; every such function is reached. -/
theorem C108_inverse (n : ℕ) : (∀ c, ∃ u, Flat (n + 5) u ∧ mean u = 0 ∧ ∀ j, ifastShenTransNeumann (n + 5) c j = sample (n + 5) u j) ∧
    ∀ u, Flat (n + 5) u → mean u = 0 → ∃ c, ∀ j, ifastShenTransNeumann (n + 5) c j = sample (n + 5) u j := by
  refine ⟨fun c => ⟨shen (n + 5) c, (shen_flat n c).1, (shen_flat n c).2, ifast_eq n c⟩, fun u hu h0 => ?_⟩
  obtain ⟨c, rfl⟩ := exists_shen n u hu h0
  exact ⟨c, ifast_eq n c⟩

/-- `fastShenScalarNeumann` computes the same numbers as the matrix product of line 89. -/
theorem C108_scalar (N : ℕ) (hN : 2 ≤ N) (f : ℕ → ℝ) (i : ℕ) :
    fastShenScalarNeumann N f i = ∑ j ∈ range N, V N i j * (f j * weights N j) := by
  rw [scalar_eq N hN]
  exact sum_congr rfl fun j _ => by rw [V_eq, weights_eq N j hN]; ring

/-- The script returns the one flat function with mean zero whose second derivative is `f` as far as the test functions can tell. -/
theorem C108_galerkin (n : ℕ) (f : ℕ → ℝ) :
    (∃! u, Flat (n + 5) u ∧ mean u = 0 ∧ Orthogonal (n + 5) fun j => sample (n + 5) (derivative^[2] u) j - f j) ∧
    ∀ u, Flat (n + 5) u → mean u = 0 → Orthogonal (n + 5) (fun j => sample (n + 5) (derivative^[2] u) j - f j) →
      ∀ j, poisson (n + 5) f j = sample (n + 5) u j := by
  set r : ℕ → ℝ := fun i => ∑ j ∈ range (n + 5), V (n + 5) i j * (subtractMean (n + 5) f j * weights (n + 5) j) with hr
  have hr' : ∀ i < n + 2, r i = fastShenScalarNeumann (n + 5) f i := fun i hi => rhs_eq n f i hi
  have key : ∀ c, Orthogonal (n + 5) (fun j => sample (n + 5) (derivative^[2] (shen (n + 5) c)) j - f j) →
      shen (n + 5) (solveNeumann (n + 5) r) = shen (n + 5) c := fun c h =>
    shen_congr n _ c ((solve_spec n r c).2 fun i hi => by rw [(orthogonal_iff n _ f).1 h i hi, hr' i hi])
  refine ⟨⟨shen (n + 5) (solveNeumann (n + 5) r), ⟨(shen_flat n _).1, (shen_flat n _).2, ?_⟩, ?_⟩, ?_⟩
  · exact (orthogonal_iff n _ f).2 fun i hi => by rw [(solve_spec n r _).1 (fun _ _ => rfl) i hi, hr' i hi]
  · rintro u ⟨hu, h0, h⟩
    obtain ⟨c, rfl⟩ := exists_shen n u hu h0
    exact (key c h).symm
  · intro u hu h0 h j
    obtain ⟨c, rfl⟩ := exists_shen n u hu h0
    rw [poisson, ifast_eq, ← key c h]

/-- Given the second derivative of a polynomial that is flat at both ends, the script returns the polynomial less its mean, which is also what
it compares with (line 109): no error at any point. -/
theorem C108_exact (n : ℕ) (u : ℝ[X]) (hu : Flat (n + 5) u) (j : ℕ) :
    poisson (n + 5) (sample (n + 5) (derivative^[2] u)) j = sample (n + 5) u j - mean u ∧
    poisson (n + 5) (sample (n + 5) (derivative^[2] u)) j = subtractMean (n + 5) (sample (n + 5) u) j := by
  have h : poisson (n + 5) (sample (n + 5) (derivative^[2] u)) j = sample (n + 5) u j - mean u := by
    have hd : derivative (u - Polynomial.C (mean u)) = derivative u := by simp
    have hF : Flat (n + 5) (u - Polynomial.C (mean u)) := by
      refine ⟨lt_of_le_of_lt (degree_sub_le _ _) (max_lt hu.1 (lt_of_le_of_lt degree_C_le ?_)), ?_, ?_⟩
      · exact_mod_cast (by omega : 0 < n + 5)
      · rw [hd]; exact hu.2.1
      · rw [hd]; exact hu.2.2
    have h0 : mean (u - Polynomial.C (mean u)) = 0 := by
      rw [mean_eq, map_sub, show Polynomial.C (mean u) = mean u • T ℝ ((0 : ℕ) : ℤ) by rw [Nat.cast_zero, T_zero, smul_eq_C_mul, mul_one],
        map_smul, Channel.wint_T, if_pos rfl, smul_eq_mul, mean, div_mul_cancel₀ _ pi_ne_zero]
      exact sub_self _
    have := (C108_galerkin n (sample (n + 5) (derivative^[2] u))).2 _ hF h0 (fun v _ _ => by
      simp only [Function.iterate_succ, Function.iterate_zero, Function.comp_apply, id_eq, hd]
      simp) j
    rw [this, sample, sample, eval_sub, eval_C]
  exact ⟨h, by rw [h, subtractMean_sample n u hu.1]⟩

/-- The forward transform recovers the coefficients given to the inverse one exactly when the last of them is zero. -/
theorem C108_transform_partial (n : ℕ) (c : ℕ → ℝ) :
    (∀ k < n + 2, fastShenTransNeumann (n + 5) (ifastShenTransNeumann (n + 5) c) k = c k) ↔ c (n + 1) = 0 := by
  rw [show ifastShenTransNeumann (n + 5) c = sample (n + 5) (shen (n + 5) c) from funext fun j => ifast_eq n c j, trans_spec]
  simp only [scalar_sample _ (by omega : 2 ≤ n + 5)]
  have hr : π / 2 * ratio (n + 2) ^ 2 ≠ 0 := by
    have := pi_ne_zero
    rw [ratio]
    positivity
  constructor
  · intro h
    have h1 := h (n + 1) (by omega)
    have h2 := quad_diff n c (n + 1) (by omega)
    rw [if_pos rfl] at h2
    have h3 : π / 2 * ratio (n + 2) ^ 2 * c (n + 1) = 0 := by linarith
    exact (mul_eq_zero.1 h3).resolve_left hr
  · intro h0 i hi
    rw [quad_diff n c i hi, h0, mul_zero, ite_self, add_zero]

/-- The number that the script prints as "Error in transforms" is not zero, for any number of points, as soon as the last coefficient is not. -/
theorem C108_transform_false (n : ℕ) (c : ℕ → ℝ) (hc : c (n + 1) ≠ 0) :
    ∃ j < n + 5, ifastShenTransNeumann (n + 5) (fastShenTransNeumann (n + 5) (ifastShenTransNeumann (n + 5) c)) j ≠ ifastShenTransNeumann (n + 5) c j := by
  by_contra hall
  push Not at hall
  refine hc ((C108_transform_partial n c).1 fun k hk => ?_)
  set d := fastShenTransNeumann (n + 5) (ifastShenTransNeumann (n + 5) c)
  have he : shen (n + 5) d = shen (n + 5) c := by
    refine Polynomial.eq_of_degrees_lt_of_eval_index_eq (range (n + 5)) (Channel.quadPoint_inj .GL (n + 5) (by omega)) ?_ ?_ fun j hj => ?_
    · rw [card_range]; exact (shen_flat n d).1.1
    · rw [card_range]; exact (shen_flat n c).1.1
    · have := hall j (mem_range.1 hj)
      rw [ifast_eq, ifast_eq] at this
      exact this
  by_contra hk'
  refine Channel.expand_ne_zero (fun j => nphi (j + 1)) 3 degree_nphi (fun i : Fin (n + 2) => d i - c i) (fun h => ?_) ?_
  · exact hk' (sub_eq_zero.1 (congrFun h ⟨k, hk⟩))
  · have h1 := shen_expand (n + 2) d
    have h2 := shen_expand (n + 2) c
    rw [Channel.expand] at h1 h2 ⊢
    simp only [sub_smul, sum_sub_distrib]
    rw [← h1, ← h2]
    exact sub_eq_zero.2 he

/-- `x³ - 3x` is flat at both ends and has mean zero; from `6x` the script recovers it with five points. -/
example (j : ℕ) : poisson 5 (sample 5 (6 * X)) j = (cos (π * j / 4)) ^ 3 - 3 * cos (π * j / 4) := by
  have hd : derivative (X ^ 3 - 3 * X : ℝ[X]) = 3 * X ^ 2 - 3 := by
    simp [derivative_pow, derivative_mul]
    rw [map_ofNat]
  have hu : Flat (0 + 5) (X ^ 3 - 3 * X : ℝ[X]) := by
    refine ⟨?_, by rw [hd]; norm_num, by rw [hd]; norm_num⟩
    refine lt_of_le_of_lt (degree_sub_le _ _) (max_lt ?_ ?_)
    · rw [degree_X_pow]; norm_num
    · rw [show (3 : ℝ[X]) * X = Polynomial.C 3 * X by rw [map_ofNat]]
      exact lt_of_le_of_lt (degree_C_mul_X_le _) (by norm_num)
  have h0 : mean (X ^ 3 - 3 * X : ℝ[X]) = 0 := by
    have e : (X ^ 3 - 3 * X : ℝ[X]) = (1 / 4 : ℝ) • T ℝ ((3 : ℕ) : ℤ) - (9 / 4 : ℝ) • T ℝ ((1 : ℕ) : ℤ) := by
      have h3 := T_add_two ℝ 1
      have h2 := T_add_two ℝ 0
      rw [T_zero, zero_add] at h2
      simp only [zero_add, T_one] at h2 h3
      norm_num at h3
      rw [Nat.cast_ofNat, Nat.cast_one, T_one, h3, h2, smul_eq_C_mul, smul_eq_C_mul]
      have c1 : Polynomial.C (1 / 4 : ℝ) * 4 = 1 := by rw [← map_ofNat Polynomial.C 4, ← map_mul]; norm_num
      have c2 : Polynomial.C (9 / 4 : ℝ) = 9 * Polynomial.C (1 / 4 : ℝ) := by rw [← map_ofNat Polynomial.C 9, ← map_mul]; norm_num
      rw [c2]
      linear_combination (-X ^ 3 + 3 * X) * c1
    rw [mean_eq, e, map_sub, map_smul, map_smul, Channel.wint_T, Channel.wint_T]
    simp
  have h := (C108_exact 0 _ hu j).1
  have h2 : derivative^[2] (X ^ 3 - 3 * X : ℝ[X]) = 6 * X := by
    rw [Function.iterate_succ, Function.comp_apply, hd]
    simp [derivative_mul, derivative_pow]
    rw [map_ofNat]
    ring
  rw [h2, h0, sub_zero] at h
  refine h.trans ?_
  rw [sample, node]
  norm_num

/-- With five points, the second basis function alone does not survive the transforms. -/
example : ∃ j < 5, ifastShenTransNeumann 5 (fastShenTransNeumann 5 (ifastShenTransNeumann 5 fun k => k)) j ≠ ifastShenTransNeumann 5 (fun k => k) j :=
  C108_transform_false 0 (fun k => k) (by norm_num)

end SpectralDNS.Sandbox.Neumann

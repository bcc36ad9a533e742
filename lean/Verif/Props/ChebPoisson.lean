import Verif.Lemmas.ChebPoisson

/-!
# C107: the stand-alone Poisson solver (sandbox/cheb_poisson.py) is exact on the functions it can represent

For every number of points and every polynomial, not for the one function and the one `N` of the script.
-/

namespace SpectralDNS.Sandbox

open Polynomial Polynomial.Chebyshev Real Finset MeasureTheory

/-- The Chebyshev transform and its inverse undo each other, for any numbers. -/
theorem C107_roundtrip (N : ℕ) (f : ℕ → ℝ) (j : ℕ) (hj : j < N) :
    ifastChebTrans N (fastChebTrans N f) j = f j ∧ fastChebTrans N (ifastChebTrans N f) j = f j :=
  ⟨ifast_fast N f j hj, fast_ifast N f j hj⟩

/-- From the values of a polynomial at the points, `fastChebTrans` computes its Chebyshev coefficients; `ifastChebTrans` evaluates a Chebyshev
series at the points. -/
theorem C107_coefficients (N : ℕ) (hN : 1 ≤ N) : (∀ p : ℝ[X], p.degree < (N : ℕ) → series N (fastChebTrans N (sample N p)) = p) ∧
    ∀ c j, ifastChebTrans N c j = sample N (series N c) j :=
  ⟨series_fast N, fun c j => (series_eval N hN c j).symm⟩

/-- `chebDerivativeCoefficients` differentiates any Chebyshev series, and `fastChebDerivative` any polynomial that the points determine. -/
theorem C107_derivative (N : ℕ) (hN : 3 ≤ N) : (∀ c, series N (chebDerivativeCoefficients N c) = derivative (series N c)) ∧
    ∀ p : ℝ[X], p.degree < (N : ℕ) → ∀ j, fastChebDerivative N (sample N p) j = sample N (derivative p) j := by
  refine ⟨fun c => (derivative_coefficients N hN c).symm, fun p hp j => ?_⟩
  rw [fastChebDerivative, ← series_eval N (by omega), ← derivative_coefficients N hN, series_fast N p hp, sample]

/-- `fastShenScalar` computes the weighted integrals against `T_k - T_{k+2}`, with either value of `fast_transform`. -/
theorem C107_scalar (fast : Bool) (N : ℕ) (p : ℝ[X]) (hp : p.degree < (N : ℕ)) (k : ℕ) (hk : k + 2 < N) :
    fastShenScalar fast N (sample N p) k = ∫ x, p.eval x * ((T ℝ (k : ℤ)).eval x - (T ℝ ((k + 2 : ℕ) : ℤ)).eval x) ∂measureT := by
  have h : Channel.quadrature .GC N (p * Channel.phi k) = ChebWeight.wint (p * Channel.phi k) := by
    obtain ⟨c, rfl⟩ := exists_series N p hp
    rw [series, sum_mul, map_sum, map_sum]
    refine sum_congr rfl fun i hi => ?_
    have hi := mem_range.1 hi
    rw [smul_mul_assoc, map_smul, map_smul, Channel.phi, mul_sub, map_sub, map_sub, quad_TT_GC N i k hi (by omega), quad_TT_GC N i _ hi hk,
      Channel.wint_TT, Channel.wint_TT]
  rw [scalar_sample, h]
  exact integral_congr_ae (Filter.Eventually.of_forall fun x => by simp [Channel.phi])

/-- The two values of `fast_transform` give the same numbers, for any data. -/
theorem C107_fast (n : ℕ) (f : ℕ → ℝ) (k : ℕ) : fastShenScalar true (n + 4) f k = fastShenScalar false (n + 4) f k ∧
    ifastShenTrans true (n + 4) f k = ifastShenTrans false (n + 4) f k ∧ fastShenTrans true (n + 4) f k = fastShenTrans false (n + 4) f k := by
  have h : fastShenScalar true (n + 4) f = fastShenScalar false (n + 4) f := by
    funext k
    rw [scalar_eq, scalar_eq]
  exact ⟨congrFun h k, by rw [ifastShen_eq, ifastShen_eq], by rw [fastShenTrans, fastShenTrans, h]⟩

/-- The Shen transform finds the coefficients that its inverse was given, and its inverse the values of any function vanishing at both ends. -/
theorem C107_shen (fast fast' : Bool) (n : ℕ) : (∀ c, ∀ k < n + 2, fastShenTrans fast (n + 4) (ifastShenTrans fast' (n + 4) c) k = c k) ∧
    ∀ p, Dirichlet (n + 4) p → ∀ j, ifastShenTrans fast (n + 4) (fastShenTrans fast' (n + 4) (sample (n + 4) p)) j = sample (n + 4) p j := by
  have h1 : ∀ (fast fast' : Bool) c, ∀ k < n + 2, fastShenTrans fast (n + 4) (ifastShenTrans fast' (n + 4) c) k = c k := fun fast fast' c =>
    (shenTrans_spec fast n _ c).2 fun i _ => by
      rw [scalar_congr fast _ _ _ fun j _ => ifastShen_eq fast' n c j, scalar_sample]
  refine ⟨h1 fast fast', fun p hp j => ?_⟩
  obtain ⟨c, rfl⟩ := exists_shen n p hp
  have h := h1 fast' fast c
  rw [show ifastShenTrans fast (n + 4) c = sample (n + 4) (shen (n + 4) c) from funext fun j => ifastShen_eq fast n c j] at h
  rw [ifastShen_eq, shen_congr n _ c h]

/-- What the Shen transform and its inverse make of arbitrary values: the projection on the functions vanishing at both ends. -/
theorem C107_projection (fast : Bool) (n : ℕ) (f : ℕ → ℝ) : ∃ u, Dirichlet (n + 4) u ∧
    (∀ j, ifastShenTrans fast (n + 4) (fastShenTrans fast (n + 4) f) j = sample (n + 4) u j) ∧
    Orthogonal (n + 4) fun j => sample (n + 4) u j - f j := by
  refine ⟨shen (n + 4) (fastShenTrans fast (n + 4) f), shen_dirichlet n _, fun j => ifastShen_eq fast n _ j, fun v hv => ?_⟩
  exact (orthogonal_iff fast n _ f).2 ((shenTrans_spec fast n f (fastShenTrans fast (n + 4) f)).1 fun _ _ => rfl) v hv

/-- The script returns the one function vanishing at both ends whose second derivative is `f` as far as the test functions can tell. -/
theorem C107_galerkin (banded fast : Bool) (n : ℕ) (f : ℕ → ℝ) :
    (∃! u, Dirichlet (n + 4) u ∧ Orthogonal (n + 4) fun j => sample (n + 4) (derivative^[2] u) j - f j) ∧
    ∀ u, Dirichlet (n + 4) u → Orthogonal (n + 4) (fun j => sample (n + 4) (derivative^[2] u) j - f j) →
      ∀ j, poisson banded fast (n + 4) f j = sample (n + 4) u j := by
  have key : ∀ c, Orthogonal (n + 4) (fun j => sample (n + 4) (derivative^[2] (shen (n + 4) c)) j - f j) →
      shen (n + 4) (solve (n + 4) (fastShenScalar fast (n + 4) f) banded) = shen (n + 4) c := fun c h =>
    shen_congr n _ c ((solve_spec banded n _ c).2 ((orthogonal_iff fast n _ f).1 h))
  refine ⟨⟨shen (n + 4) (solve (n + 4) (fastShenScalar fast (n + 4) f) banded), ⟨shen_dirichlet n _, ?_⟩, ?_⟩, ?_⟩
  · exact (orthogonal_iff fast n _ f).2 ((solve_spec banded n _ _).1 fun _ _ => rfl)
  · rintro u ⟨hu, h⟩
    obtain ⟨c, rfl⟩ := exists_shen n u hu
    exact (key c h).symm
  · intro u hu h j
    obtain ⟨c, rfl⟩ := exists_shen n u hu
    rw [poisson, ifastShen_eq, key c h]

/-- Given the second derivative of a polynomial vanishing at both ends, the script returns the polynomial: no error at any point. -/
theorem C107_exact (banded fast : Bool) (n : ℕ) (u : ℝ[X]) (hu : Dirichlet (n + 4) u) (j : ℕ) :
    poisson banded fast (n + 4) (sample (n + 4) (derivative^[2] u)) j = sample (n + 4) u j :=
  (C107_galerkin banded fast n _).2 u hu (fun v _ => by simp) j

/-- Every polynomial right-hand side of degree below `N-2` is served: the equation and both boundary conditions hold exactly. -/
theorem C107_solves (banded fast : Bool) (n : ℕ) (f : ℝ[X]) (hf : f.degree < (n + 2 : ℕ)) : ∃ u, derivative^[2] u = f ∧ u.eval 1 = 0 ∧
    u.eval (-1) = 0 ∧ ∀ j, poisson banded fast (n + 4) (sample (n + 4) f) j = sample (n + 4) u j := by
  obtain ⟨u, hu, h2⟩ := exists_second n f hf
  refine ⟨u, h2, hu.2.1, hu.2.2, fun j => ?_⟩
  rw [← C107_exact banded fast n u hu j, h2]

/-- The number that the script prints, "Error in transforms", is zero: the returned values survive both transforms, whatever `f`. -/
theorem C107_printed (banded fast : Bool) (n : ℕ) (f : ℕ → ℝ) (j : ℕ) :
    ifastShenTrans fast (n + 4) (fastShenTrans fast (n + 4) (poisson banded fast (n + 4) f)) j = poisson banded fast (n + 4) f j := by
  obtain ⟨u, ⟨hu, ho⟩, -⟩ := (C107_galerkin banded fast n f).1
  have h : poisson banded fast (n + 4) f = sample (n + 4) u := funext ((C107_galerkin banded fast n f).2 u hu ho)
  rw [h, (C107_shen fast fast n).2 u hu]

/-- `1 - x⁴` vanishes at both ends, and five points are enough to represent it: from `-12 x²` the script recovers it. -/
example (j : ℕ) : poisson true true 5 (sample 5 (-12 * X ^ 2)) j = 1 - cos (π * (j + 1 / 2) / 5) ^ 4 := by
  have hu : Dirichlet (1 + 4) (1 - X ^ 4 : ℝ[X]) := by
    refine ⟨?_, by simp, by norm_num⟩
    refine lt_of_le_of_lt (degree_sub_le _ _) (max_lt ?_ ?_)
    · rw [degree_one]; norm_num
    · rw [degree_X_pow]; norm_num
  have h := C107_exact true true 1 _ hu j
  have h2 : derivative^[2] (1 - X ^ 4 : ℝ[X]) = -12 * X ^ 2 := by
    simp [derivative_pow, derivative_mul]
    ring_nf
    rw [map_ofNat, map_ofNat]
    ring
  rw [h2] at h
  rw [show (5 : ℕ) = 1 + 4 from rfl, h, sample, node]
  simp

/-- Two series of three terms: the derivative of `T_2` is `4 T_1`. -/
example : chebDerivativeCoefficients 3 (fun k => if k = 2 then 1 else 0) 1 = 4 := by
  simp [chebDerivativeCoefficients, Function.update]
  norm_num

end SpectralDNS.Sandbox

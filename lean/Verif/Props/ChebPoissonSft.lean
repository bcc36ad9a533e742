import Verif.Model.ChebPoissonSft
import Verif.Props.ChebPoisson

/-!
# C128: sandbox/cheb_poisson_sft.py solves a system with two unknowns too many, and returns the same numbers as cheb_poisson.py

`solve` takes the length of its argument, which is `N`, for the number of unknowns, which is `N-2`.  The result is right, because the matrix is upper
triangular and the last two entries of the right-hand side are zero.
-/

namespace SpectralDNS.Sandbox.Sft

open Polynomial Finset

/-- Two more equations with right-hand side zero change nothing. -/
theorem solve_longer (n : ℕ) (d : ℕ → ℝ) (banded banded' : Bool) (k : ℕ) (hk : k < n + 4) :
    Sandbox.solve (n + 6) (fun i => if i < n + 2 then d i else 0) banded k = if k < n + 2 then Sandbox.solve (n + 4) d banded' k else 0 := by
  rw [solve_eq _ (by omega), solve_eq _ (by omega)]
  refine (linsolve_spec (n + 4) stiff _ (stiff_det (n + 2)) fun k => if k < n + 2 then linsolve (n + 2) stiff d k else 0).1 (fun i hi => ?_) k hk
  have hx := (linsolve_spec (n + 2) stiff d (stiff_det n) (linsolve (n + 2) stiff d)).2 fun _ _ => rfl
  rw [sum_range_succ, sum_range_succ, if_neg (by omega), if_neg (by omega), mul_zero, mul_zero, add_zero, add_zero,
    sum_congr rfl fun j hj => by rw [if_pos (mem_range.1 hj)]]
  by_cases h : i < n + 2
  · rw [if_pos h, hx i h]
  · rw [if_neg h]
    refine sum_eq_zero fun j hj => ?_
    have := mem_range.1 hj
    rw [stiff, if_neg (by omega), if_neg (by omega), zero_mul]

/-- C128: the numbers of cheb_poisson.py, for every number of points and all data, with either branch. -/
theorem C128_same (banded banded' fast : Bool) (n : ℕ) (f : ℕ → ℝ) (j : ℕ) : uq banded (n + 4) f j = poisson banded' fast (n + 4) f j := by
  have hs : fastShenScalar fast (n + 4) f = fastShenScalar false (n + 4) f := by
    funext k
    rw [scalar_eq, scalar_eq]
  rw [poisson, hs, ifastShen_eq, sample, shen, eval_finsetSum, uq]
  refine sum_congr rfl fun k hk => ?_
  have hk := mem_range.1 hk
  have h := solve_longer n (fastShenScalar false (n + 4) f) banded banded' k (by omega)
  rw [if_pos (by omega)] at h
  rw [V_eq, eval_smul, smul_eq_mul, ← h, mul_comm]
  rfl

/-- C128: no error for the second derivative of a polynomial that vanishes at both ends and that the points determine. -/
theorem C128_exact (banded : Bool) (n : ℕ) (u : ℝ[X]) (hu : Dirichlet (n + 4) u) (j : ℕ) :
    uq banded (n + 4) (sample (n + 4) (derivative^[2] u)) j = sample (n + 4) u j := by
  rw [C128_same banded banded true, C107_exact banded true n u hu]

/-- C128: it depends on the two zeros: with anything else in the last entry of the right-hand side, the last coefficient of the Galerkin
solution is not found. -/
theorem C128_zeros (banded : Bool) (n : ℕ) (d : ℕ → ℝ) (e : ℝ) (he : e ≠ 0) :
    solve banded (n + 4) (fun i => if i < n + 2 then d i else if i = n + 2 then 0 else e) (n + 1) ≠ Sandbox.solve (n + 4) d banded (n + 1) := by
  intro h
  rw [solve, solve_eq _ (by omega), solve_eq _ (by omega)] at h
  change linsolve (n + 4) stiff (fun i => if i < n + 2 then d i else if i = n + 2 then 0 else e) (n + 1) = linsolve (n + 2) stiff d (n + 1) at h
  have h1 := (linsolve_spec (n + 4) stiff _ (stiff_det (n + 2)) _).2 fun _ _ =>
    (rfl : linsolve (n + 4) stiff (fun i => if i < n + 2 then d i else if i = n + 2 then 0 else e) _ = _)
  have h2 := (linsolve_spec (n + 2) stiff d (stiff_det n) _).2 fun _ _ => (rfl : linsolve (n + 2) stiff d _ = _)
  generalize linsolve (n + 4) stiff (fun i => if i < n + 2 then d i else if i = n + 2 then 0 else e) = y at *
  have row : ∀ (m : ℕ) (z : ℕ → ℝ), ∑ j ∈ range (n + 1), stiff (n + 1) j * z j = 0 := fun m z => sum_eq_zero fun j hj => by
    have := mem_range.1 hj
    rw [stiff, if_neg (by omega), if_neg (by omega), zero_mul]
  have a1 := h1 (n + 1) (by omega)
  have a2 := h2 (n + 1) (by omega)
  have a3 := h1 (n + 3) (by omega)
  rw [sum_range_succ, sum_range_succ, sum_range_succ, row n, if_pos (by omega)] at a1
  rw [sum_range_succ, row n] at a2
  rw [sum_range_succ, if_neg (by omega), if_neg (by omega), sum_eq_zero fun j hj => by
    have := mem_range.1 hj
    rw [stiff, if_neg (by omega), if_neg (by omega), zero_mul], zero_add] at a3
  have s1 : stiff (n + 1) (n + 2) = 0 := by rw [stiff, if_neg (by omega), if_neg (by omega)]
  have s2 : stiff (n + 1) (n + 3) ≠ 0 := by
    rw [stiff, if_neg (by omega), if_pos (by omega)]
    have := Real.pi_pos
    have : (0 : ℝ) < Real.pi * ((n + 1 : ℕ) + 1) := by positivity
    nlinarith
  rw [s1, h, ← a2] at a1
  have hy : y (n + 3) = 0 := by
    have : stiff (n + 1) (n + 3) * y (n + 3) = 0 := by linarith
    exact (mul_eq_zero.1 this).resolve_left s2
  rw [hy, mul_zero] at a3
  exact he a3.symm

/-- `1 - x⁴` with five points. -/
example (j : ℕ) : uq false 5 (sample 5 (derivative^[2] (1 - X ^ 4))) j = sample 5 (1 - X ^ 4) j := by
  refine C128_exact false 1 _ ⟨?_, by simp, by norm_num⟩ j
  refine lt_of_le_of_lt (degree_sub_le _ _) (max_lt ?_ ?_)
  · rw [degree_one]; norm_num
  · rw [degree_X_pow]; norm_num

end SpectralDNS.Sandbox.Sft

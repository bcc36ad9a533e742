import Verif.Model.ChebNonhomo
import Verif.Spec.ChebNonhomo
import Verif.Lemmas.ChebPoisson

/-!
# C125: the Helmholtz solver with boundary values (sandbox/cheb_helmholtz_sft_nonhomo.py) computes the Galerkin solution with these values

For every number of points, every `kx`, `a`, `b` and all data, not for the one function and the one `N` of the script.
-/

namespace SpectralDNS.Sandbox.Nonhomo

open Polynomial Polynomial.Chebyshev Real Finset Channel

/-- The matrix of the system is made of the inner products of the basis. -/
theorem system_entry (n : ℕ) (kx : ℝ) : (Matrix.of fun i j : Fin (n + 2) => ADDmat i j + kx ^ 2 * BDDmat i j) =
    -entry .GC (n + 4) phi phi 2 (n + 2) (n + 2) + kx ^ 2 • entry .GC (n + 4) phi phi 0 (n + 2) (n + 2) := by
  rw [← stiff_entry, ← massTri]
  ext i j
  simp only [Matrix.of_apply, Matrix.add_apply, Matrix.neg_apply, Matrix.smul_apply, smul_eq_mul, ADDmat, BDDmat, stiff, triMatrix, Function.update_apply]
  congr 1
  · split_ifs <;> ring
  · split_ifs <;> ring

theorem system_det (n : ℕ) (kx : ℝ) : (Matrix.of fun i j : Fin (n + 2) => ADDmat i j + kx ^ 2 * BDDmat i j).det ≠ 0 := by
  rw [system_entry]
  refine det_ne_zero _ fun x hx => ?_
  have h1 := second_neg .GC (n + 4) (n + 2) phi 2 (by omega) (by omega) degree_phi expand_phi x hx
  have h2 := mass_pos .GC (n + 4) (n + 2) phi 2 (by omega) (by omega) degree_phi x hx
  rw [Matrix.add_mulVec, Matrix.neg_mulVec, Matrix.smul_mulVec, dotProduct_add, dotProduct_neg, dotProduct_smul, smul_eq_mul]
  nlinarith [mul_nonneg (sq_nonneg kx) h2.le]

/-- The linear function with the boundary values. -/
noncomputable def lift (a b : ℝ) : ℝ[X] := ((a + b) / 2) • T ℝ 0 + ((a - b) / 2) • T ℝ 1

theorem lift_quad (n : ℕ) (a b : ℝ) (i : ℕ) (hi : i < n + 2) : quadrature .GC (n + 4) (lift a b * phi i) =
    if i = 0 then π / 2 * (a + b) else if i = 1 then π / 4 * (a - b) else 0 := by
  have h0 : ∀ j < n + 4, quadrature .GC (n + 4) (T ℝ 0 * T ℝ (j : ℤ)) = if 0 = j then π else 0 := fun j hj => by
    have := quad_TT_GC (n + 4) 0 j (by omega) hj
    simpa using this
  have h1 : ∀ j < n + 4, quadrature .GC (n + 4) (T ℝ 1 * T ℝ (j : ℤ)) = if 1 = j then π / 2 else 0 := fun j hj => by
    have := quad_TT_GC (n + 4) 1 j (by omega) hj
    simpa using this
  rw [lift, phi, add_mul, smul_mul_assoc, smul_mul_assoc, mul_sub, mul_sub, map_add, map_smul, map_smul, map_sub, map_sub, h0 i (by omega), h0 _ (by omega),
    h1 i (by omega), h1 _ (by omega)]
  rcases i with _ | _ | i
  · simp; ring
  · simp; ring
  · simp

theorem lift_second (a b : ℝ) : derivative^[2] (lift a b) = 0 := by simp [lift, smul_eq_C_mul]

theorem lift_eval (a b x : ℝ) : (lift a b).eval x = (a + b) / 2 + (a - b) / 2 * x := by simp [lift]

theorem lift_degree (n : ℕ) (a b : ℝ) : (lift a b).degree < ((n + 4 : ℕ) : WithBot ℕ) := by
  have h : lift a b = C ((a - b) / 2) * X + C ((a + b) / 2) := by simp [lift, smul_eq_C_mul]; ring
  rw [h]
  exact lt_of_le_of_lt degree_linear_le (by exact_mod_cast (by omega : 1 < n + 4))

theorem boundary_lift (n : ℕ) (a b : ℝ) (c : ℕ → ℝ) : Boundary (n + 4) a b (shen (n + 4) c + lift a b) := by
  obtain ⟨h1, h2, h3⟩ := shen_dirichlet n c
  refine ⟨lt_of_le_of_lt (degree_add_le _ _) (max_lt h1 (lift_degree n a b)), ?_, ?_⟩
  · rw [eval_add, h2, lift_eval]; ring
  · rw [eval_add, h3, lift_eval]; ring

theorem exists_lift (n : ℕ) (a b : ℝ) (u : ℝ[X]) (hu : Boundary (n + 4) a b u) : ∃ c, u = shen (n + 4) c + lift a b := by
  obtain ⟨h1, h2, h3⟩ := hu
  obtain ⟨c, hc⟩ := exists_shen n (u - lift a b) ⟨lt_of_le_of_lt (degree_sub_le _ _) (max_lt h1 (lift_degree n a b)), by
    rw [eval_sub, h2, lift_eval]; ring, by rw [eval_sub, h3, lift_eval]; ring⟩
  exact ⟨c, by rw [← hc]; ring⟩

/-- `solve` finds the function with the given boundary values and inner products. -/
theorem solve_spec (n : ℕ) (kx a b : ℝ) (d c : ℕ → ℝ) : (∀ k < n + 2, solve (n + 4) kx a b d k = c k) ↔
    ∀ i < n + 2, quadrature .GC (n + 4) (operator kx (shen (n + 4) c + lift a b) * phi i) = d i := by
  have h := linsolve_spec (n + 2) (fun i j => ADDmat i j + kx ^ 2 * BDDmat i j) (subtract kx a b d) (system_det n kx) c
  refine h.symm.trans (forall₂_congr fun i hi => ?_)
  have e0 := entry_sum n 0 _ (massTri n) c i hi
  have e2 := entry_sum n 2 _ (stiff_entry n) c i hi
  have e : ∑ j ∈ range (n + 2), (ADDmat i j + kx ^ 2 * BDDmat i j) * c j =
      -quadrature .GC (n + 4) (derivative^[2] (shen (n + 4) c) * phi i) + kx ^ 2 * quadrature .GC (n + 4) (shen (n + 4) c * phi i) := by
    rw [← e2, show shen (n + 4) c = derivative^[0] (shen (n + 4) c) from rfl, ← e0, mul_sum, ← sum_neg_distrib, ← sum_add_distrib]
    refine sum_congr rfl fun j _ => ?_
    simp only [ADDmat, BDDmat, stiff, triMatrix, Function.update_apply]
    split_ifs <;> ring
  have hop : operator kx (shen (n + 4) c + lift a b) * phi i = -(derivative^[2] (shen (n + 4) c) * phi i) +
      (kx ^ 2) • (shen (n + 4) c * phi i) + (kx ^ 2) • (lift a b * phi i) := by
    have hl := lift_second a b
    simp only [Function.iterate_succ, Function.iterate_zero, Function.comp, id] at hl ⊢
    rw [operator, derivative_add, derivative_add, hl, smul_eq_C_mul, smul_eq_C_mul]
    ring
  rw [e, hop, map_add, map_add, map_neg, map_smul, map_smul, lift_quad n a b i hi, smul_eq_mul, smul_eq_mul, subtract]
  rcases i with _ | _ | i
  · simp only [Function.update_apply]
    constructor <;> intro h <;> simp at h ⊢ <;> linarith
  · simp only [Function.update_apply]
    constructor <;> intro h <;> simp at h ⊢ <;> linarith
  · simp [Function.update_apply]

/-- The values at the points are those of the expansion. -/
theorem uq_eq (n : ℕ) (kx a b : ℝ) (f : ℕ → ℝ) (j : ℕ) :
    uq (n + 4) kx a b f j = sample (n + 4) (shen (n + 4) (solve (n + 4) kx a b (fastShenScalar false (n + 4) f)) + lift a b) j := by
  rw [uq, ifst, sample, eval_add, lift_eval, shen, eval_finsetSum, points_node]
  have h1 : uk_hat (n + 4) kx a b (fastShenScalar false (n + 4) f) (n + 4 - 2) = a := by simp [uk_hat]
  have h2 : uk_hat (n + 4) kx a b (fastShenScalar false (n + 4) f) (n + 4 - 1) = b := by simp [uk_hat]
  rw [h1, h2, sum_congr rfl fun k hk => by
    rw [V_eq, uk_hat, if_pos (mem_range.1 hk), mul_comm, ← smul_eq_mul, ← eval_smul]]
  simp only [T_zero, T_one, eval_one, eval_X]
  ring

/-- Whatever the data, there is exactly one polynomial of degree below `N` with the two boundary values which satisfies the equation as far as the test functions
can tell, and the script returns its values at the points. -/
theorem C125_galerkin (n : ℕ) (kx a b : ℝ) (f : ℕ → ℝ) :
    (∃! u, Boundary (n + 4) a b u ∧ Orthogonal (n + 4) fun j => sample (n + 4) (operator kx u) j - f j) ∧
    ∀ u, Boundary (n + 4) a b u → Orthogonal (n + 4) (fun j => sample (n + 4) (operator kx u) j - f j) →
      ∀ j, uq (n + 4) kx a b f j = sample (n + 4) u j := by
  have key : ∀ c, Orthogonal (n + 4) (fun j => sample (n + 4) (operator kx (shen (n + 4) c + lift a b)) j - f j) →
      shen (n + 4) (solve (n + 4) kx a b (fastShenScalar false (n + 4) f)) = shen (n + 4) c := fun c h =>
    shen_congr n _ c ((solve_spec n kx a b _ c).2 ((orthogonal_iff false n _ f).1 h))
  refine ⟨⟨shen (n + 4) (solve (n + 4) kx a b (fastShenScalar false (n + 4) f)) + lift a b, ⟨boundary_lift n a b _, ?_⟩, ?_⟩, ?_⟩
  · exact (orthogonal_iff false n _ f).2 ((solve_spec n kx a b _ _).1 fun _ _ => rfl)
  · rintro u ⟨hu, h⟩
    obtain ⟨c, rfl⟩ := exists_lift n a b u hu
    rw [key c h]
  · intro u hu h j
    obtain ⟨c, rfl⟩ := exists_lift n a b u hu
    rw [uq_eq, key c h]

/-- Given `-u'' + kx^2 u` of a polynomial `u` that the points can represent and its boundary values, the script returns `u`: its final assertion holds. -/
theorem C125_exact (n : ℕ) (kx : ℝ) (u : ℝ[X]) (hu : u.degree < (n + 4 : ℕ)) (j : ℕ) :
    uq (n + 4) kx (u.eval 1) (u.eval (-1)) (sample (n + 4) (operator kx u)) j = sample (n + 4) u j :=
  (C125_galerkin n kx _ _ _).2 u ⟨hu, rfl, rfl⟩ (fun v _ => by simp) j

/-- With zero boundary values and `kx = 0` the script solves the Poisson problem of cheb_poisson.py, with the sign of `f` changed. -/
theorem C125_poisson (banded fast : Bool) (n : ℕ) (f : ℕ → ℝ) (j : ℕ) : uq (n + 4) 0 0 0 (fun i => -f i) j = poisson banded fast (n + 4) f j := by
  have hs : shen (n + 4) (Sandbox.solve (n + 4) (fastShenScalar fast (n + 4) f) banded) =
      shen (n + 4) (solve (n + 4) 0 0 0 (fastShenScalar false (n + 4) fun i => -f i)) := by
    refine shen_congr n _ _ ((Sandbox.solve_spec banded n _ _).2 fun i hi => ?_)
    have h := (solve_spec n 0 0 0 (fastShenScalar false (n + 4) fun i => -f i) _).1 (fun _ _ => rfl) i hi
    have e : fastShenScalar false (n + 4) (fun i => -f i) i = -fastShenScalar fast (n + 4) f i := by
      rw [scalar_eq, scalar_eq]; simp
    rw [e] at h
    have e2 : ∀ p : ℝ[X], operator 0 (p + lift 0 0) * phi i = -(derivative^[2] p * phi i) := fun p => by
      simp [operator, lift]
    rw [e2, map_neg] at h
    linarith
  rw [uq_eq, poisson, ifastShen_eq, hs]
  simp [lift]

/-- `1 + x + x³` has the values 3 and -1 at the ends; from `-6x + 4(1 + x + x³)` (`kx = 2`) five points recover it. -/
example (j : ℕ) : uq 5 2 3 (-1) (fun i => -6 * cos (π * (i + 1 / 2) / 5) + 4 * (1 + cos (π * (i + 1 / 2) / 5) + cos (π * (i + 1 / 2) / 5) ^ 3)) j =
    1 + cos (π * (j + 1 / 2) / 5) + cos (π * (j + 1 / 2) / 5) ^ 3 := by
  have hd : (1 + X + X ^ 3 : ℝ[X]).degree < ((1 + 4 : ℕ) : WithBot ℕ) := by
    have : (1 + X + X ^ 3 : ℝ[X]).degree ≤ 3 := by compute_degree
    exact lt_of_le_of_lt this (by norm_num)
  have h := C125_exact 1 2 _ hd j
  have e : sample (1 + 4) (operator 2 (1 + X + X ^ 3 : ℝ[X])) =
      fun i : ℕ => -6 * cos (π * (i + 1 / 2) / 5) + 4 * (1 + cos (π * (i + 1 / 2) / 5) + cos (π * (i + 1 / 2) / 5) ^ 3) := by
    funext i
    simp [sample, operator, node, derivative_pow]
    ring
  rw [e] at h
  rw [show (3 : ℝ) = (1 + X + X ^ 3 : ℝ[X]).eval 1 by simp; norm_num, show (-1 : ℝ) = (1 + X + X ^ 3 : ℝ[X]).eval (-1) by simp; norm_num]
  refine h.trans ?_
  simp [sample, node]

end SpectralDNS.Sandbox.Nonhomo

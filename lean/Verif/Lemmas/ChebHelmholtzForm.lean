import Verif.Spec.ChebHelmholtz
import Mathlib.Analysis.SpecialFunctions.Trigonometric.Chebyshev.Basic
import Mathlib.Algebra.Polynomial.Roots
import Mathlib.Algebra.Polynomial.Derivative

/-!
# Polynomials which satisfy the homogeneous Helmholtz equation at the Chebyshev-Gauss-Lobatto points

The residual of such a polynomial is `(α + β x) U_{n-1}`.  The solutions with the residuals `U_{n-1}` and `x U_{n-1}` and their derivatives are positive at 1, since
all derivatives of `U_{n-1}` are nonnegative there.
-/

namespace SpectralDNS.ChebH

open Polynomial Finset

open Polynomial.Chebyshev (U U_zero U_one U_add_two U_eval_one U_real_cos natDegree_U_natCast derivative_U_eval_one)

/-- All derivatives are nonnegative at 1. -/
def Above (p : ℝ[X]) : Prop := ∀ k : ℕ, 0 ≤ (derivative^[k] p).eval 1

theorem above_add {p q : ℝ[X]} (hp : Above p) (hq : Above q) : Above (p + q) := fun k => by
  rw [iterate_map_add, eval_add]
  exact add_nonneg (hp k) (hq k)

theorem iterate_shift (p : ℝ[X]) (k : ℕ) :
    derivative^[k + 1] ((X - 1) * p) = (X - 1) * derivative^[k + 1] p + C ((k : ℝ) + 1) * derivative^[k] p := by
  induction k with
  | zero =>
    simp
    ring
  | succ k ih =>
    rw [Function.iterate_succ_apply', ih, Function.iterate_succ_apply' derivative (k + 1), Function.iterate_succ_apply' derivative k]
    simp only [derivative_mul, derivative_sub, derivative_X, derivative_one, derivative_C, Nat.cast_add, Nat.cast_one, map_add, map_one]
    ring

theorem above_shift {p : ℝ[X]} (hp : Above p) : Above ((X - 1) * p) := fun k => by
  cases k with
  | zero => simp
  | succ k =>
    rw [iterate_shift]
    simp only [eval_add, eval_mul, eval_sub, eval_X, eval_one, sub_self, zero_mul, zero_add, eval_C]
    exact mul_nonneg (by positivity) (hp k)

theorem above_X_mul {p : ℝ[X]} (hp : Above p) : Above (X * p) := by
  have := above_add (above_shift hp) hp
  rwa [show (X - 1) * p + p = X * p by ring] at this

theorem above_U (n : ℕ) : Above (U ℝ (n : ℤ)) ∧ Above (U ℝ ((n : ℤ) + 1) - U ℝ (n : ℤ)) := by
  have two : ∀ {p : ℝ[X]}, Above p → Above (2 * p) := fun {p} h => by
    have := above_add h h
    rwa [← two_mul] at this
  have h1 : Above (1 : ℝ[X]) := fun k => by
    cases k with
    | zero => simp
    | succ k => simp [Function.iterate_succ_apply]
  induction n with
  | zero =>
    refine ⟨by simpa using h1, ?_⟩
    have := above_add (two (above_shift h1)) h1
    rw [show (((0 : ℕ) : ℤ) + 1) = 1 by norm_num, U_one, Nat.cast_zero, U_zero]
    rwa [show (2 * ((X - 1) * 1) + 1 : ℝ[X]) = 2 * X - 1 by ring] at this
  | succ n ih =>
    have hs : Above (U ℝ ((n : ℤ) + 1)) := by
      have := above_add ih.2 ih.1
      rwa [sub_add_cancel] at this
    push_cast
    refine ⟨hs, ?_⟩
    have := above_add (two (above_shift hs)) ih.2
    rwa [show (2 * ((X - 1) * U ℝ ((n : ℤ) + 1)) + (U ℝ ((n : ℤ) + 1) - U ℝ (n : ℤ))) = U ℝ ((n : ℤ) + 1 + 1) - U ℝ ((n : ℤ) + 1) by
      rw [show (n : ℤ) + 1 + 1 = n + 2 by ring, U_add_two]; ring] at this

/-- Even for `ε = 1`, odd for `ε = -1`. -/
def Par (ε : ℝ) (p : ℝ[X]) : Prop := p.comp (-X) = C ε * p

theorem par_derivative {ε : ℝ} {p : ℝ[X]} (h : Par ε p) : Par (-ε) (derivative p) := by
  have := congrArg derivative h
  rw [derivative_comp, derivative_C_mul, derivative_neg, derivative_X] at this
  rw [Par, C_neg, neg_mul, ← this]
  ring

theorem par_iterate {ε : ℝ} {p : ℝ[X]} (h : Par ε p) (j : ℕ) : Par ε (derivative^[2 * j] p) := by
  induction j with
  | zero => exact h
  | succ j ih =>
    rw [show 2 * (j + 1) = 2 * j + 1 + 1 by ring, Function.iterate_succ_apply', Function.iterate_succ_apply']
    simpa using par_derivative (par_derivative ih)

theorem par_eval {ε : ℝ} {p : ℝ[X]} (h : Par ε p) : p.eval (-1) = ε * p.eval 1 := by
  have := congrArg (eval 1) h
  simpa using this

theorem par_X_mul {ε : ℝ} {p : ℝ[X]} (h : Par ε p) : Par (-ε) (X * p) := by
  have h' : p.comp (-X) = C ε * p := h
  rw [Par, mul_comp, h', X_comp, C_neg]
  ring

theorem par_U (n : ℕ) : Par ((-1) ^ n) (U ℝ (n : ℤ)) ∧ Par ((-1) ^ (n + 1)) (U ℝ ((n : ℤ) + 1)) := by
  induction n with
  | zero => simp [Par]
  | succ n ih =>
    push_cast
    refine ⟨ih.2, ?_⟩
    have h0 : (U ℝ (n : ℤ)).comp (-X) = C ((-1) ^ n) * U ℝ (n : ℤ) := ih.1
    have h1 : (U ℝ ((n : ℤ) + 1)).comp (-X) = C ((-1) ^ (n + 1)) * U ℝ ((n : ℤ) + 1) := ih.2
    rw [Par, show (n : ℤ) + 1 + 1 = n + 2 by ring, U_add_two, sub_comp, mul_comp, mul_comp, h0, h1, X_comp, ofNat_comp]
    simp only [pow_succ, C_mul, C_neg, C_1]
    ring

/-- The polynomial with `κ p - p'' = g`. -/
noncomputable def inv (κ : ℝ) (g : ℝ[X]) : ℝ[X] := ∑ j ∈ range (g.natDegree + 1), C ((κ⁻¹) ^ (j + 1)) * derivative^[2 * j] g

theorem inv_spec {κ : ℝ} (hκ : 0 < κ) (g : ℝ[X]) : C κ * inv κ g - derivative (derivative (inv κ g)) = g := by
  rw [inv, derivative_sum, derivative_sum, mul_sum, ← sum_sub_distrib]
  have h : ∀ j ∈ range (g.natDegree + 1), C κ * (C ((κ⁻¹) ^ (j + 1)) * derivative^[2 * j] g) - derivative (derivative (C ((κ⁻¹) ^ (j + 1)) * derivative^[2 * j] g)) =
      C ((κ⁻¹) ^ j) * derivative^[2 * j] g - C ((κ⁻¹) ^ (j + 1)) * derivative^[2 * (j + 1)] g := fun j _ => by
    rw [derivative_C_mul, derivative_C_mul, ← mul_assoc, ← C_mul, show 2 * (j + 1) = 2 * j + 1 + 1 by ring, Function.iterate_succ_apply',
      Function.iterate_succ_apply', show κ * κ⁻¹ ^ (j + 1) = κ⁻¹ ^ j by rw [pow_succ', mul_inv_cancel_left₀ hκ.ne']]
  rw [sum_congr rfl h, sum_range_sub' fun j => C ((κ⁻¹) ^ j) * derivative^[2 * j] g]
  rw [iterate_derivative_eq_zero (x := 2 * (g.natDegree + 1)) (by omega)]
  simp

theorem helmholtz_injective {κ : ℝ} (hκ : 0 < κ) {p : ℝ[X]} (h : C κ * p - derivative (derivative p) = 0) : p = 0 := by
  by_contra hp
  have h1 : degree (C κ * p) = degree p := degree_C_mul hκ.ne'
  have h2 : degree (derivative (derivative p)) < degree p := lt_of_le_of_lt (degree_derivative_le) (degree_derivative_lt hp)
  rw [sub_eq_zero.1 h] at h1
  exact h2.ne h1

theorem inv_par {κ ε : ℝ} {g : ℝ[X]} (h : Par ε g) : Par ε (inv κ g) := by
  rw [Par, inv, Polynomial.sum_comp, mul_sum]
  refine sum_congr rfl fun j _ => ?_
  have hj : (derivative^[2 * j] g).comp (-X) = _ := par_iterate h j
  rw [mul_comp, hj, C_comp]
  ring

theorem inv_pos_aux {κ : ℝ} (hκ : 0 < κ) {g : ℝ[X]} (h : Above g) (h0 : 0 < g.eval 1) : 0 < (inv κ g).eval 1 := by
  rw [inv, eval_finsetSum]
  refine sum_pos' (fun j _ => ?_) ⟨0, by simp, ?_⟩
  · rw [eval_mul, eval_C]
    exact mul_nonneg (by positivity) (h _)
  · simp only [mul_zero, Function.iterate_zero, id, eval_mul, eval_C]
    positivity

theorem inv_deriv_pos {κ : ℝ} (hκ : 0 < κ) {g : ℝ[X]} (h : Above g) (h0 : 0 < (derivative g).eval 1) : 0 < (derivative (inv κ g)).eval 1 := by
  rw [inv, derivative_sum, eval_finsetSum]
  refine sum_pos' (fun j _ => ?_) ⟨0, by simp, ?_⟩
  · rw [derivative_C_mul, eval_mul, eval_C, ← Function.iterate_succ_apply' derivative]
    exact mul_nonneg (by positivity) (h _)
  · simp only [mul_zero, Function.iterate_zero, id, derivative_C_mul, eval_mul, eval_C]
    positivity

variable {n : ℕ} {pts w : ℕ → ℝ}

theorem cos_ne {n j k : ℕ} (hn : 1 ≤ n) (hj : j ≤ n) (hk : k ≤ n) (h : Real.cos (Real.pi * j / n) = Real.cos (Real.pi * k / n)) : j = k := by
  have hn0 : (0 : ℝ) < n := by positivity
  have hmem : ∀ i : ℕ, i ≤ n → Real.pi * i / n ∈ Set.Icc 0 Real.pi := fun i hi => by
    refine ⟨by positivity, ?_⟩
    rw [div_le_iff₀ hn0]
    exact mul_le_mul_of_nonneg_left (by exact_mod_cast hi) Real.pi_pos.le
  have := Real.injOn_cos (hmem j hj) (hmem k hk) h
  have h2 : Real.pi * (j : ℝ) = Real.pi * k := by rwa [div_left_inj' hn0.ne'] at this
  exact_mod_cast mul_left_cancel₀ Real.pi_pos.ne' h2

theorem pts_inj (hn : 1 ≤ n) (hL : Lobatto n pts w) {j k : ℕ} (hj : j ≤ n) (hk : k ≤ n) (h : pts j = pts k) : j = k := by
  rcases hL.points with hp | hp
  · rw [hp j hj, hp k hk] at h
    exact cos_ne hn hj hk h
  · rw [hp j hj, hp k hk] at h
    exact cos_ne hn hj hk (neg_injective h)

theorem pts_ends (hn : 1 ≤ n) (hL : Lobatto n pts w) : (pts 0 = 1 ∧ pts n = -1) ∨ (pts 0 = -1 ∧ pts n = 1) := by
  have hn0 : (n : ℝ) ≠ 0 := by positivity
  have e : Real.pi * (n : ℝ) / n = Real.pi := by field_simp
  rcases hL.points with hp | hp
  · left; rw [hp 0 (by omega), hp n le_rfl, e]; simp
  · right; rw [hp 0 (by omega), hp n le_rfl, e]; simp

theorem U_pts (hn : 2 ≤ n) (hL : Lobatto n pts w) {j : ℕ} (h0 : 0 < j) (hj : j < n) : (U ℝ ((n - 1 : ℕ) : ℤ)).eval (pts j) = 0 := by
  have hn0 : (0 : ℝ) < n := by positivity
  have hc : (U ℝ ((n - 1 : ℕ) : ℤ)).eval (Real.cos (Real.pi * j / n)) = 0 := by
    have hs : 0 < Real.sin (Real.pi * j / n) := by
      refine Real.sin_pos_of_pos_of_lt_pi (by positivity) ?_
      rw [div_lt_iff₀ hn0]
      exact mul_lt_mul_of_pos_left (by exact_mod_cast hj) Real.pi_pos
    have h := U_real_cos (Real.pi * j / n) ((n - 1 : ℕ) : ℤ)
    rw [show (((n - 1 : ℕ) : ℤ) : ℝ) + 1 = n by push_cast [Nat.cast_sub (by omega : 1 ≤ n)]; ring,
      show (n : ℝ) * (Real.pi * j / n) = j * Real.pi by field_simp, Real.sin_nat_mul_pi] at h
    exact (mul_eq_zero.1 h).resolve_right hs.ne'
  rcases hL.points with hp | hp
  · rw [hp j hj.le, hc]
  · rw [hp j hj.le]
    have := congrArg (eval (Real.cos (Real.pi * j / n))) (par_U (n - 1)).1
    simp only [eval_comp, eval_neg, eval_X, eval_mul, eval_C, hc, mul_zero] at this
    exact this

/-- Two polynomials of degree at most `n` with the same values at the points are equal. -/
theorem eq_of_pts (hn : 1 ≤ n) (hL : Lobatto n pts w) {p q : ℝ[X]} (hp : p.natDegree ≤ n) (hq : q.natDegree ≤ n) (h : ∀ j ≤ n, p.eval (pts j) = q.eval (pts j)) :
    p = q := by
  have h0 : p - q = 0 := by
    refine eq_zero_of_natDegree_lt_card_of_eval_eq_zero (p - q) (f := fun j : Fin (n + 1) => pts j)
      (fun i j hij => Fin.ext (pts_inj hn hL (Nat.le_of_lt_succ i.2) (Nat.le_of_lt_succ j.2) hij)) (fun j => ?_) ?_
    · rw [eval_sub, h j (Nat.le_of_lt_succ j.2), sub_self]
    · rw [Fintype.card_fin]
      exact Nat.lt_succ_of_le ((natDegree_sub_le p q).trans (max_le hp hq))
  exact sub_eq_zero.1 h0

/-- The residual of a solution of the homogeneous equations. -/
theorem residual (hn : 2 ≤ n) (hL : Lobatto n pts w) {R : ℝ[X]} (hR : R.natDegree ≤ n) (h : ∀ j, 0 < j → j < n → R.eval (pts j) = 0) :
    ∃ α β : ℝ, R = C α * U ℝ ((n - 1 : ℕ) : ℤ) + C β * (X * U ℝ ((n - 1 : ℕ) : ℤ)) := by
  have hn0 : (n : ℝ) ≠ 0 := by positivity
  set ε : ℝ := (-1) ^ (n - 1) with hε
  have hε2 : ε * ε = 1 := by rw [hε, ← mul_pow]; norm_num
  have u1 : (U ℝ ((n - 1 : ℕ) : ℤ)).eval 1 = n := by rw [U_eval_one]; push_cast [Nat.cast_sub (by omega : 1 ≤ n)]; ring
  have u2 : (U ℝ ((n - 1 : ℕ) : ℤ)).eval (-1) = ε * n := by rw [par_eval (par_U (n - 1)).1, u1]
  have hU : (U ℝ ((n - 1 : ℕ) : ℤ)).natDegree = n - 1 := natDegree_U_natCast ℝ (n - 1)
  refine ⟨(R.eval 1 + ε * R.eval (-1)) / (2 * n), (R.eval 1 - ε * R.eval (-1)) / (2 * n), ?_⟩
  set q : ℝ[X] := C ((R.eval 1 + ε * R.eval (-1)) / (2 * n)) * U ℝ ((n - 1 : ℕ) : ℤ) + C ((R.eval 1 - ε * R.eval (-1)) / (2 * n)) * (X * U ℝ ((n - 1 : ℕ) : ℤ)) with hq
  have q1 : q.eval 1 = R.eval 1 := by
    rw [hq]
    simp only [eval_add, eval_mul, eval_C, eval_X, u1]
    field_simp
    ring
  have q2 : q.eval (-1) = R.eval (-1) := by
    rw [hq]
    simp only [eval_add, eval_mul, eval_C, eval_X, u2]
    field_simp
    linear_combination (2 * R.eval (-1)) * hε2
  refine eq_of_pts (by omega) hL hR ?_ fun j hj => ?_
  · rw [hq]
    refine (natDegree_add_le _ _).trans (max_le ((natDegree_C_mul_le _ _).trans (by omega)) ((natDegree_C_mul_le _ _).trans (natDegree_mul_le.trans ?_)))
    rw [natDegree_X, hU]
    omega
  · rcases Nat.eq_zero_or_pos j with rfl | h0
    · rcases pts_ends (by omega) hL with e | e <;> rw [e.1]
      exacts [q1.symm, q2.symm]
    · rcases Nat.lt_or_eq_of_le hj with hlt | rfl
      · rw [h j h0 hlt, hq]
        simp [U_pts hn hL h0 hlt]
      · rcases pts_ends (by omega) hL with e | e <;> rw [e.2]
        exacts [q2.symm, q1.symm]

/-- The boundary term of a solution of the homogeneous equations is positive unless the solution is zero. -/
theorem boundary_form (hn : 2 ≤ n) (hL : Lobatto n pts w) {κ : ℝ} (hκ : 0 < κ) {p : ℝ[X]} (hp : p.natDegree ≤ n)
    (h : ∀ j, 0 < j → j < n → κ * p.eval (pts j) - (derivative (derivative p)).eval (pts j) = 0) :
    0 ≤ p.eval 1 * (derivative p).eval 1 - p.eval (-1) * (derivative p).eval (-1) ∧
      (p.eval 1 * (derivative p).eval 1 - p.eval (-1) * (derivative p).eval (-1) = 0 → p = 0) := by
  set u := U ℝ ((n - 1 : ℕ) : ℤ) with hu
  have hn0 : (0 : ℝ) < n := by positivity
  have u1 : u.eval 1 = n := by rw [hu, U_eval_one]; push_cast [Nat.cast_sub (by omega : 1 ≤ n)]; ring
  have ha : Above u := (above_U (n - 1)).1
  have hx : Above (X * u) := above_X_mul ha
  have hpar : Par ((-1) ^ (n - 1)) u := (par_U (n - 1)).1
  have hd : 0 < (derivative u).eval 1 := by
    have h2 := derivative_U_eval_one (R := ℝ) ((n - 1 : ℕ) : ℤ)
    rw [← hu] at h2
    have hn1 : (1 : ℝ) ≤ ((n - 1 : ℕ) : ℝ) := by exact_mod_cast (by omega : 1 ≤ n - 1)
    push_cast at h2
    have h3 : (0 : ℝ) < ((n - 1 : ℕ) + 2) * ((n - 1 : ℕ) + 1) * (n - 1 : ℕ) := by positivity
    nlinarith
  have hd' : 0 < (derivative (X * u)).eval 1 := by
    rw [derivative_mul, derivative_X]
    simp only [eval_add, eval_mul, eval_X, one_mul, u1]
    linarith
  have e0 := inv_pos_aux hκ ha (by rw [u1]; exact hn0)
  have e1 := inv_deriv_pos hκ ha hd
  have o0 := inv_pos_aux hκ hx (by simp only [eval_mul, eval_X, one_mul, u1]; exact hn0)
  have o1 := inv_deriv_pos hκ hx hd'
  set ε : ℝ := (-1) ^ (n - 1) with hε
  have hε2 : ε * ε = 1 := by rw [hε, ← mul_pow]; norm_num
  have pe := inv_par (κ := κ) hpar
  have po := inv_par (κ := κ) (par_X_mul hpar)
  have l0 := par_eval pe
  have l1 := par_eval (par_derivative pe)
  have m0 := par_eval po
  have m1 := par_eval (par_derivative po)
  obtain ⟨α, β, hR⟩ := residual hn hL (R := C κ * p - derivative (derivative p))
    ((natDegree_sub_le _ _).trans (max_le ((natDegree_C_mul_le _ _).trans hp)
      ((natDegree_derivative_le _).trans ((Nat.sub_le _ _).trans ((natDegree_derivative_le _).trans ((Nat.sub_le _ _).trans hp))))))
    fun j h0 hj => by
      rw [eval_sub, eval_mul, eval_C]
      exact h j h0 hj
  have hpe : p = C α * inv κ u + C β * inv κ (X * u) := by
    refine sub_eq_zero.1 (helmholtz_injective hκ ?_)
    have s1 := inv_spec hκ u
    have s2 := inv_spec hκ (X * u)
    simp only [derivative_sub, derivative_add, derivative_C_mul]
    linear_combination hR - C α * s1 - C β * s2
  have hform : p.eval 1 * (derivative p).eval 1 - p.eval (-1) * (derivative p).eval (-1) =
      2 * (α ^ 2 * ((inv κ u).eval 1 * (derivative (inv κ u)).eval 1) + β ^ 2 * ((inv κ (X * u)).eval 1 * (derivative (inv κ (X * u))).eval 1)) := by
    rw [hpe]
    simp only [derivative_add, derivative_C_mul, eval_add, eval_mul, eval_C]
    rw [l0, l1, m0, m1]
    generalize (inv κ u).eval 1 = E0
    generalize (derivative (inv κ u)).eval 1 = E1
    generalize (inv κ (X * u)).eval 1 = O0
    generalize (derivative (inv κ (X * u))).eval 1 = O1
    linear_combination ((α * E0 - β * O0) * (α * E1 - β * O1)) * hε2
  rw [hform]
  have c1 := mul_pos e0 e1
  have c2 := mul_pos o0 o1
  have key : ∀ c d : ℝ, 0 < c → 0 < d → 0 ≤ 2 * (α ^ 2 * c + β ^ 2 * d) ∧ (2 * (α ^ 2 * c + β ^ 2 * d) = 0 → α = 0 ∧ β = 0) := fun c d hc hd => by
    have z1 : 0 ≤ α ^ 2 * c := by positivity
    have z2 : 0 ≤ β ^ 2 * d := by positivity
    refine ⟨by linarith, fun hz => ⟨?_, ?_⟩⟩
    · have : α ^ 2 * c = 0 := by linarith
      exact pow_eq_zero_iff two_ne_zero |>.1 ((mul_eq_zero.1 this).resolve_right hc.ne')
    · have : β ^ 2 * d = 0 := by linarith
      exact pow_eq_zero_iff two_ne_zero |>.1 ((mul_eq_zero.1 this).resolve_right hd.ne')
  refine ⟨(key _ _ c1 c2).1, fun hz => ?_⟩
  obtain ⟨hα, hβ⟩ := (key _ _ c1 c2).2 hz
  rw [hpe, hα, hβ]
  simp

/-- Without the zeroth-order term the solutions of the homogeneous equations are linear. -/
theorem linear_of_collocation (hn : 2 ≤ n) (hL : Lobatto n pts w) {p : ℝ[X]} (hp : p.natDegree ≤ n)
    (h : ∀ j, 0 < j → j < n → (derivative (derivative p)).eval (pts j) = 0) : ∃ α β : ℝ, p = C α + C β * X := by
  have h2 : derivative (derivative p) = 0 := by
    refine eq_zero_of_natDegree_lt_card_of_eval_eq_zero _ (f := fun j : Fin (n - 1) => pts (j + 1))
      (fun i j hij => Fin.ext (by have := pts_inj (by omega) hL (by omega) (by omega) hij; omega)) (fun j => h _ (by omega) (by omega)) ?_
    rw [Fintype.card_fin]
    have h3 := natDegree_derivative_le (derivative p)
    have h4 := natDegree_derivative_le p
    omega
  have h5 := derivative_eq_zero.1 h2
  obtain ⟨β, hβ⟩ := natDegree_eq_zero.1 h5
  have h6 : derivative (p - C β * X) = 0 := by rw [derivative_sub, derivative_C_mul, derivative_X, mul_one, hβ, sub_self]
  obtain ⟨α, hα⟩ := natDegree_eq_zero.1 (derivative_eq_zero.1 h6)
  exact ⟨α, β, by rw [hα]; ring⟩

end SpectralDNS.ChebH

import Verif.Lemmas.Quadrature

/-!
# C52: `utilities.dx`
-/

namespace SpectralDNS.Utilities

open Polynomial Polynomial.Chebyshev Finset

/-- The blocks of the ranks tile the array: every entry is held by exactly one rank. -/
def Tiles {M : ℕ} {J R : Type*} (blocks : R → Block M J) : Prop := ∀ j k, ∃! r, j ∈ (blocks r).sl ∧ k ∈ (blocks r).other

/-- Sum of the whole array over the other axes. -/
theorem gather_eq {M : ℕ} {J R : Type*} [Fintype J] [Fintype R] (blocks : R → Block M J) (h : Tiles blocks) (u : Fin M → J → ℝ) (j : Fin M) :
    gather blocks u j = ∑ k, u j k := by
  classical
  unfold gather
  have e : ∀ r, (if j ∈ (blocks r).sl then ∑ k ∈ (blocks r).other, u j k else 0) =
      ∑ k, if j ∈ (blocks r).sl ∧ k ∈ (blocks r).other then u j k else 0 := by
    intro r
    by_cases hj : j ∈ (blocks r).sl
    · simp [hj]
    · simp [hj]
  simp_rw [e]
  rw [sum_comm]
  refine sum_congr rfl fun k _ => ?_
  obtain ⟨r, hr, hu⟩ := h j k
  rw [sum_eq_single r (fun r' _ hne => if_neg fun hc => hne (hu r' hc)) (fun hn => absurd (mem_univ r) hn), if_pos hr]

/-- **C52.** Any two distributions of the array over any numbers of ranks give the same integral (for each of the three rules). -/
theorem C52_decomposition {M : ℕ} {J R R' : Type*} [Fintype J] [Fintype R] [Fintype R'] (rule : (ℕ → ℝ) → ℝ) (vol : ℝ)
    (blocks : R → Block M J) (blocks' : R' → Block M J) (h : Tiles blocks) (h' : Tiles blocks') (u : Fin M → J → ℝ) :
    dx rule vol blocks u = dx rule vol blocks' u := by
  unfold dx
  simp_rw [gather_eq blocks h, gather_eq blocks' h']

/-- The rules that `dx` uses for `M` points. -/
inductive IsRule (M : ℕ) : ((ℕ → ℝ) → ℝ) → Prop
  | gl (n : ℕ) (h : M = n + 2) : IsRule M (dxGL n)
  | gc : IsRule M (dxGC M)
  | other (w : ℕ → ℝ) : IsRule M (dxOther M w)

/-- **C52.** The integral is linear in the field. -/
theorem C52_linear {M : ℕ} {J R : Type*} [Fintype R] (rule : (ℕ → ℝ) → ℝ) (hr : IsRule M rule) (vol : ℝ)
    (blocks : R → Block M J) (u v : Fin M → J → ℝ) (a b : ℝ) :
    dx rule vol blocks (fun j k => a * u j k + b * v j k) = a * dx rule vol blocks u + b * dx rule vol blocks v := by
  have hadd : ∀ c d : ℕ → ℝ, rule (fun j => c j + d j) = rule c + rule d := by
    cases hr with
    | gl n _ => exact dxGL_add n
    | gc => exact dxGC_add M
    | other w => intro c d; simp only [dxOther, add_mul, sum_add_distrib]
  have hsmul : ∀ (a : ℝ) (c : ℕ → ℝ), rule (fun j => a * c j) = a * rule c := by
    cases hr with
    | gl n _ => exact dxGL_smul n
    | gc => exact dxGC_smul M
    | other w => intro a c; simp only [dxOther, mul_assoc, ← mul_sum]
  have e : (fun j => if h : j < M then gather blocks (fun j k => a * u j k + b * v j k) ⟨j, h⟩ else 0) =
      fun j => a * (if h : j < M then gather blocks u ⟨j, h⟩ else 0) + b * (if h : j < M then gather blocks v ⟨j, h⟩ else 0) := by
    funext j
    by_cases h : j < M
    · simp only [h, dif_pos, gather]
      rw [mul_sum, mul_sum, ← sum_add_distrib]
      refine sum_congr rfl fun r _ => ?_
      split_ifs
      · rw [sum_add_distrib, mul_sum, mul_sum]
      · ring
    · simp [h]
  unfold dx
  rw [e, hadd, hsmul, hsmul]
  ring

/-- A field whose profile at every position `k` of the other axes is the polynomial `P k`, on given wall-normal points. -/
noncomputable def field {M : ℕ} {J : Type*} (x : ℕ → ℝ) (P : J → ℝ[X]) : Fin M → J → ℝ := fun j k => (P k).eval (x j)

/-- The integral over the wall-normal direction and (midpoint rule, as for a Fourier series) over the others. -/
noncomputable def exactIntegral {J : Type*} [Fintype J] (vol : ℝ) (P : J → ℝ[X]) : ℝ :=
  ∑ k, (∫ x in (-1 : ℝ)..1, (P k).eval x) * vol

theorem dx_exact {M m : ℕ} {J R : Type*} [Fintype J] [Fintype R] (rule : (ℕ → ℝ) → ℝ)
    (hcongr : ∀ c d : ℕ → ℝ, (∀ j < M, c j = d j) → rule c = rule d) (x : ℕ → ℝ)
    (hex : ∀ P : ℝ[X], P.degree < m → rule (fun j => P.eval (x j)) = integ P) (vol : ℝ) (blocks : R → Block M J) (h : Tiles blocks)
    (P : J → ℝ[X]) (hP : ∀ k, (P k).degree < m) : dx rule vol blocks (field x P) = exactIntegral vol P := by
  have hdeg : (∑ k, P k).degree < m := by
    rcases m with _ | m
    · have : ∀ k, P k = 0 := fun k => by
        have := hP k
        rw [Nat.cast_zero] at this
        exact degree_eq_bot.1 (by
          by_contra hc
          exact absurd this (not_lt.2 (Polynomial.zero_le_degree_iff.2 fun h0 => hc (by rw [h0]; exact degree_zero))))
      simp [this]
    · exact lt_of_le_of_lt (degree_sum_le _ _) ((Finset.sup_lt_iff (by exact_mod_cast WithBot.bot_lt_coe _)).2 fun k _ => hP k)
  have hs := hex (∑ k, P k) hdeg
  unfold dx exactIntegral
  rw [← sum_mul]
  congr 1
  have : ∑ k, (∫ y in (-1 : ℝ)..1, (P k).eval y) = integ (∑ k, P k) := (integ_sum _ _).symm
  rw [this, ← hs]
  refine hcongr _ _ fun j hj => ?_
  rw [dif_pos hj, gather_eq blocks h]
  simp [field, eval_finsetSum]

theorem dxGC_congr (M : ℕ) (c d : ℕ → ℝ) (h : ∀ j < M, c j = d j) : dxGC M c = dxGC M d := by
  unfold dxGC
  exact sum_congr rfl fun j hj => by rw [h j (mem_range.1 hj)]

theorem dxGL_congr (n : ℕ) (c d : ℕ → ℝ) (h : ∀ j < n + 2, c j = d j) : dxGL n c = dxGL n d := by
  unfold dxGL dct1
  refine sum_congr rfl fun k _ => ?_
  rw [h 0 (by omega), h (n + 1) (by omega)]
  have e : ∑ j ∈ range n, c (j + 1) * Real.cos (Real.pi * (j + 1) * k / (n + 1)) =
      ∑ j ∈ range n, d (j + 1) * Real.cos (Real.pi * (j + 1) * k / (n + 1)) :=
    sum_congr rfl fun j hj => by rw [h (j + 1) (by have := mem_range.1 hj; omega)]
  dsimp only
  rw [e]

/-- **C52.** With Gauss points the result is the exact integral for every polynomial profile of degree less than the number of points. -/
theorem C52_gauss_exact {M : ℕ} {J R : Type*} [Fintype J] [Fintype R] (vol : ℝ) (blocks : R → Block M J) (h : Tiles blocks)
    (P : J → ℝ[X]) (hP : ∀ k, (P k).degree < M) : dx (dxGC M) vol blocks (field (xGC M) P) = exactIntegral vol P :=
  dx_exact (dxGC M) (dxGC_congr M) (xGC M)
    (fun Q hQ => exact_of_T (dxGC M) (dxGC_add M) (dxGC_smul M) (xGC M) M (fun n hn => dxGC_T M n hn) Q hQ) vol blocks h P hP

/-- **C52.** With Gauss-Lobatto points and an even number of points (the solvers use powers of two) the result is exact for
every polynomial profile of degree less than the number of points. -/
theorem C52_lobatto_exact {n : ℕ} (hev : (n + 2) % 2 = 0) {J R : Type*} [Fintype J] [Fintype R] (vol : ℝ) (blocks : R → Block (n + 2) J)
    (h : Tiles blocks) (P : J → ℝ[X]) (hP : ∀ k, (P k).degree < (n + 2 : ℕ)) :
    dx (dxGL n) vol blocks (field (xGL n) P) = exactIntegral vol P := by
  refine dx_exact (m := n + 2) (dxGL n) (dxGL_congr n) (xGL n) (fun Q hQ => ?_) vol blocks h P hP
  refine exact_of_T (dxGL n) (dxGL_add n) (dxGL_smul n) (xGL n) (n + 2) (fun m hm => ?_) Q hQ
  rw [dxGL_T n m hm]
  split_ifs with h
  · rw [integ_T, if_pos (by omega)]; simp
  · simp

/-- **C52.** With Gauss-Lobatto points and any number of points the result is exact for degrees less than the number of points
minus one. -/
theorem C52_lobatto_exact_any {n : ℕ} {J R : Type*} [Fintype J] [Fintype R] (vol : ℝ) (blocks : R → Block (n + 2) J)
    (h : Tiles blocks) (P : J → ℝ[X]) (hP : ∀ k, (P k).degree < (n + 1 : ℕ)) :
    dx (dxGL n) vol blocks (field (xGL n) P) = exactIntegral vol P := by
  refine dx_exact (m := n + 1) (dxGL n) (dxGL_congr n) (xGL n) (fun Q hQ => ?_) vol blocks h P hP
  refine exact_of_T (dxGL n) (dxGL_add n) (dxGL_smul n) (xGL n) (n + 1) (fun m hm => ?_) Q hQ
  rw [dxGL_T n m (by omega), if_neg (by omega), one_mul]

/-- **C52.** With a basis of another family the result is exact for every polynomial profile for which the points and weights of the basis are (for Legendre: degrees less
than twice the number of points). -/
theorem C52_other_exact {M m : ℕ} {J R : Type*} [Fintype J] [Fintype R] (w x : ℕ → ℝ) (hw : ∀ Q : ℝ[X], Q.degree < m → ∑ j ∈ range M, w j * Q.eval (x j) = ∫ y in (-1 : ℝ)..1, Q.eval y)
    (vol : ℝ) (blocks : R → Block M J) (h : Tiles blocks) (P : J → ℝ[X]) (hP : ∀ k, (P k).degree < m) :
    dx (dxOther M w) vol blocks (field x P) = exactIntegral vol P :=
  dx_exact (dxOther M w) (fun c d e => sum_congr rfl fun j hj => by rw [e j (mem_range.1 hj)]) x
    (fun Q hQ => by rw [dxOther, integ, ← hw Q hQ]; exact sum_congr rfl fun j _ => mul_comm _ _) vol blocks h P hP

/-- One Legendre point: the middle with weight two is exact for degrees less than two. -/
example {J R : Type*} [Fintype J] [Fintype R] (vol : ℝ) (blocks : R → Block 1 J) (h : Tiles blocks) (P : J → ℝ[X]) (hP : ∀ k, (P k).degree < (2 : ℕ)) :
    dx (dxOther 1 fun _ => 2) vol blocks (field (fun _ => 0) P) = exactIntegral vol P := by
  refine C52_other_exact _ _ (fun Q hQ => ?_) vol blocks h P hP
  have hQ' : Q.degree ≤ 1 := degree_le_iff_coeff_zero _ _ |>.2 fun m hm => coeff_eq_zero_of_degree_lt (hQ.trans_le (by
    have : 1 < m := by exact_mod_cast hm
    exact_mod_cast this))
  rw [eq_X_add_C_of_degree_le_one hQ']
  simp only [range_one, sum_singleton, eval_add, eval_mul, eval_C, eval_X, mul_zero, zero_add]
  rw [intervalIntegral.integral_add (Continuous.intervalIntegrable (by fun_prop) _ _) (Continuous.intervalIntegrable (by fun_prop) _ _), intervalIntegral.integral_const_mul]
  norm_num

/-- With an odd number of points the last Chebyshev polynomial is counted twice: the rule is then not exact for all the
polynomials its points determine. -/
theorem C52_lobatto_odd_false {n : ℕ} (hodd : (n + 2) % 2 = 1) (hn : 0 < n) :
    dxGL n (fun j => (T ℝ ((n + 1 : ℕ) : ℤ)).eval (xGL n j)) = 2 * integ (T ℝ ((n + 1 : ℕ) : ℤ)) ∧
      dxGL n (fun j => (T ℝ ((n + 1 : ℕ) : ℤ)).eval (xGL n j)) ≠ integ (T ℝ ((n + 1 : ℕ) : ℤ)) := by
  have h := dxGL_T n (n + 1) (by omega)
  rw [if_pos rfl] at h
  refine ⟨h, ?_⟩
  rw [h, integ_T, if_neg (by omega)]
  have : (0 : ℝ) < n := by exact_mod_cast hn
  have : (1 - ((n + 1 : ℕ) : ℝ) ^ 2) < 0 := by push_cast; nlinarith
  have h2 : 2 / (1 - ((n + 1 : ℕ) : ℝ) ^ 2) < 0 := div_neg_of_pos_of_neg two_pos this
  intro hc
  linarith

/-- Two ranks holding two planes each of a 4 x 3 array. -/
example : Tiles (fun r : Fin 2 => (⟨univ.filter fun j => j.1 / 2 = r.1, univ⟩ : Block 4 (Fin 3))) := by
  intro j k
  refine ⟨⟨j.1 / 2, by omega⟩, by simp, fun r hr => ?_⟩
  simp at hr
  exact Fin.ext hr.symm

/-- Profiles that are not constant: the integral of `1 + x^2` is `8/3`. -/
example : exactIntegral (J := Fin 1) 1 (fun _ => 1 + X ^ 2) = 8 / 3 := by
  unfold exactIntegral
  norm_num [integral_pow]

end SpectralDNS.Utilities

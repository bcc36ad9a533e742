import Verif.Model.Galerkin
import Verif.Lemmas.ChebWeight
import Verif.Lemmas.Quadrature
import Mathlib.LinearAlgebra.Matrix.Nondegenerate
import Mathlib.LinearAlgebra.Lagrange
import Mathlib.LinearAlgebra.Matrix.ToLinearEquiv

/-! Exactness of the quadratures and positivity of the Galerkin matrices. -/

namespace SpectralDNS.Channel

open Polynomial Polynomial.Chebyshev Real ChebWeight Finset

theorem wint_T (m : ℕ) : wint (T ℝ (m : ℤ)) = if m = 0 then π else 0 := by
  split_ifs with h
  · subst h; exact integral_eval_T_real_measureT_zero
  · exact integral_eval_T_real_measureT_of_ne_zero (by exact_mod_cast h)

theorem quadrature_apply (q : Quad) (N : ℕ) (p : ℝ[X]) :
    quadrature q N p = ∑ j ∈ range N, quadWeight q N j * p.eval (quadPoint q N j) := by
  simp [quadrature, LinearMap.sum_apply]

theorem quad_GC_T (N m : ℕ) (hN : 0 < N) (hm : m < 2 * N) : quadrature .GC N (T ℝ (m : ℤ)) = wint (T ℝ (m : ℤ)) := by
  rw [quadrature_apply, wint_T]
  simp only [quadWeight, quadPoint]
  rw [← mul_sum]
  have hN' : (N : ℝ) ≠ 0 := by positivity
  split_ifs with h
  · subst h
    simp
    field_simp
  · have := Utilities.sum_T_xGC N hN.ne' m fun hd => by
      have := Int.le_of_dvd (by omega) hd
      omega
    unfold Utilities.xGC at this
    rw [this, mul_zero]

theorem quad_GL_trap (n : ℕ) (p : ℝ[X]) : quadrature .GL (n + 2) p =
    π / (2 * ((n : ℝ) + 1)) * ∑ j ∈ range (n + 1), (p.eval (Utilities.xGL n j) + p.eval (Utilities.xGL n (j + 1))) := by
  have hp : ∀ j : ℕ, quadPoint .GL (n + 2) j = Utilities.xGL n j := fun j => by
    simp only [quadPoint, Utilities.xGL]
    congr 2
    push_cast
    ring
  have hn : ((n + 2 : ℕ) : ℝ) - 1 = n + 1 := by push_cast; ring
  rw [quadrature_apply, sum_add_distrib, sum_range_succ, sum_range_succ', sum_range_succ' (fun j => p.eval (Utilities.xGL n j)),
    sum_range_succ (fun j => p.eval (Utilities.xGL n (j + 1)))]
  have h1 : ∀ j ∈ range n, quadWeight .GL (n + 2) (j + 1) * p.eval (quadPoint .GL (n + 2) (j + 1)) =
      π / (n + 1) * p.eval (Utilities.xGL n (j + 1)) := fun j hj => by
    have := mem_range.1 hj
    rw [hp, quadWeight, if_neg (by omega), hn]
  rw [sum_congr rfl h1, ← mul_sum, hp, hp, quadWeight, quadWeight, if_pos (Or.inl rfl), if_pos (Or.inr (by omega)), hn]
  have hn' : (n : ℝ) + 1 ≠ 0 := by positivity
  field_simp
  ring

theorem quad_GL_T (N m : ℕ) (hN : 2 ≤ N) (hm : m < 2 * (N - 1)) : quadrature .GL N (T ℝ (m : ℤ)) = wint (T ℝ (m : ℤ)) := by
  obtain ⟨n, rfl⟩ : ∃ n, N = n + 2 := ⟨N - 2, by omega⟩
  rw [quad_GL_trap, Utilities.trap_T, wint_T]
  have hn' : (n : ℝ) + 1 ≠ 0 := by positivity
  by_cases h : m = 0
  · rw [if_pos (by simp [h]), if_pos h]
    field_simp
  · rw [if_neg, if_neg h, mul_zero]
    intro hd
    have := Int.le_of_dvd (by omega) hd
    omega

/-- The quadratures are exact up to degree `2N - 3`. -/
theorem quad_exact (q : Quad) (N : ℕ) (hN : 2 ≤ N) (p : ℝ[X]) (hp : p.degree < (2 * (N - 1) : ℕ)) : quadrature q N p = wint p := by
  obtain ⟨c, rfl⟩ := Utilities.exists_chebyshev _ p hp
  rw [map_sum, map_sum]
  refine sum_congr rfl fun m hm => ?_
  rw [map_smul, map_smul]
  have := mem_range.1 hm
  cases q
  · rw [quad_GC_T N m (by omega) (by omega)]
  · rw [quad_GL_T N m hN (by omega)]

theorem quadWeight_pos (q : Quad) (N : ℕ) (hN : 2 ≤ N) (j : ℕ) : 0 < quadWeight q N j := by
  have h : (0 : ℝ) < N := by positivity
  have h1 : (0 : ℝ) < N - 1 := by
    have : (2 : ℝ) ≤ N := by exact_mod_cast hN
    linarith
  cases q
  · exact div_pos pi_pos h
  · simp only [quadWeight]
    have := pi_pos
    split_ifs <;> positivity

theorem quad_sq_nonneg (q : Quad) (N : ℕ) (hN : 2 ≤ N) (p : ℝ[X]) : 0 ≤ quadrature q N (p * p) := by
  rw [quadrature_apply]
  refine sum_nonneg fun j _ => mul_nonneg (quadWeight_pos q N hN j).le ?_
  rw [eval_mul]; exact mul_self_nonneg _

/-! ## The bases -/

theorem phi_eq (j : ℕ) : phi j = (1 - X ^ 2) * (2 * U ℝ j) := by
  have h1 := one_sub_X_sq_mul_U_eq_pol_in_T ℝ (j : ℤ)
  have h2 := T_add_two ℝ (j : ℤ)
  rw [phi]
  push_cast
  linear_combination -2 * h1 + h2

theorem s_dvd (p : ℝ[X]) (h1 : p.eval 1 = 0) (h2 : p.eval (-1) = 0) : ∃ r, p = (1 - X ^ 2) * r := by
  obtain ⟨r, hr⟩ := dvd_iff_isRoot.2 h1
  have h3 : r.eval (-1) = 0 := by
    rw [hr] at h2
    simp only [eval_mul, eval_sub, eval_X, eval_C, mul_eq_zero] at h2
    exact h2.resolve_left (by norm_num)
  obtain ⟨t, ht⟩ := dvd_iff_isRoot.2 h3
  refine ⟨-t, ?_⟩
  rw [hr, ht]
  simp
  ring

theorem psi_eq (j : ℕ) : ∃ r, psi j = (1 - X ^ 2) ^ 2 * r := by
  have hj : (j : ℝ) + 3 ≠ 0 := by positivity
  have h : psi j = phi j - (((j : ℝ) + 1) / (j + 3)) • phi (j + 2) := by
    rw [psi, phi, phi]
    have : (2 * ((j : ℝ) + 2) / (j + 3)) = 1 + ((j : ℝ) + 1) / (j + 3) := by field_simp; ring
    rw [this]
    module
  obtain ⟨r, hr⟩ := s_dvd (2 * U ℝ j - (((j : ℝ) + 1) / (j + 3)) • (2 * U ℝ ((j + 2 : ℕ) : ℤ)))
    (by simp [U_eval_one]; field_simp; ring)
    (by
      simp only [eval_sub, eval_smul, eval_mul, eval_ofNat, U_eval_neg_one]
      have : (((j + 2 : ℕ) : ℤ)).negOnePow = (j : ℤ).negOnePow := by
        push_cast
        rw [Int.negOnePow_add]
        have : Int.negOnePow 2 = 1 := by decide
        rw [this, mul_one]
      rw [this]
      push_cast
      simp only [smul_eq_mul]
      field_simp
      ring)
  refine ⟨r, ?_⟩
  rw [h, phi_eq, phi_eq, pow_two (1 - X ^ 2), mul_assoc, ← hr]
  simp only [smul_eq_C_mul]
  push_cast
  ring

/-- The function with coefficients `x`. -/
noncomputable def expand (f : ℕ → ℝ[X]) {a : ℕ} (x : Fin a → ℝ) : ℝ[X] := ∑ j, x j • f j

theorem expand_phi {a : ℕ} (x : Fin a → ℝ) : ∃ r, expand phi x = (1 - X ^ 2) * r := by
  refine ⟨∑ j : Fin a, x j • (2 * U ℝ (j : ℕ)), ?_⟩
  rw [expand, mul_sum]
  exact sum_congr rfl fun j _ => by rw [phi_eq, mul_smul_comm]

theorem expand_psi {a : ℕ} (x : Fin a → ℝ) : ∃ r, expand psi x = (1 - X ^ 2) ^ 2 * r := by
  choose r hr using psi_eq
  refine ⟨∑ j : Fin a, x j • r j, ?_⟩
  rw [expand, mul_sum]
  exact sum_congr rfl fun j _ => by rw [hr, mul_smul_comm]

theorem degree_phi (j : ℕ) : (phi j).degree = (j + 2 : ℕ) := by
  rw [phi, degree_sub_eq_right_of_degree_lt]
  · rw [degree_T]; rfl
  · rw [degree_T, degree_T]
    exact_mod_cast (by omega : j < j + 2)

theorem degree_psi (j : ℕ) : (psi j).degree = (j + 4 : ℕ) := by
  have hc : ((j : ℝ) + 1) / (j + 3) ≠ 0 := by positivity
  rw [psi, degree_add_eq_right_of_degree_lt]
  · rw [degree_smul_of_smul_regular _ (IsSMulRegular.of_ne_zero hc), degree_T]; rfl
  · rw [degree_smul_of_smul_regular _ (IsSMulRegular.of_ne_zero hc)]
    refine lt_of_le_of_lt (degree_sub_le _ _) (max_lt ?_ ?_)
    · rw [degree_T, degree_T]
      exact_mod_cast (by omega : j < j + 4)
    · refine lt_of_le_of_lt (degree_smul_le _ _) ?_
      rw [degree_T, degree_T]
      exact_mod_cast (by omega : j + 2 < j + 4)

/-- Functions of increasing degree are independent. -/
theorem expand_ne_zero (f : ℕ → ℝ[X]) (s : ℕ) (hf : ∀ j, (f j).degree = (j + s : ℕ)) {a : ℕ} (x : Fin a → ℝ) (hx : x ≠ 0) :
    expand f x ≠ 0 := by
  classical
  obtain ⟨i, hi⟩ := Function.ne_iff.1 hx
  let S : Finset (Fin a) := univ.filter fun j => x j ≠ 0
  have hS : S.Nonempty := ⟨i, by simpa [S] using hi⟩
  obtain ⟨m, hm, hmax⟩ := S.exists_max_image (fun j => (j : ℕ)) hS
  have hxm : x m ≠ 0 := (mem_filter.1 hm).2
  have hc : (expand f x).coeff (m + s) = x m * (f m).coeff (m + s) := by
    rw [expand, finsetSum_coeff, sum_eq_single m]
    · simp
    · intro j _ hj
      rw [coeff_smul, smul_eq_mul]
      by_cases h : x j = 0
      · rw [h, zero_mul]
      · have hlt : (j : ℕ) < m := lt_of_le_of_ne (hmax j (by simp [S, h])) fun e => hj (Fin.ext e)
        rw [coeff_eq_zero_of_degree_lt, mul_zero]
        rw [hf]
        exact_mod_cast (by omega : (j : ℕ) + s < m + s)
    · simp
  intro h0
  rw [h0, coeff_zero] at hc
  have : (f m).coeff (m + s) ≠ 0 := coeff_ne_zero_of_eq_degree (hf m)
  exact (mul_ne_zero hxm this) hc.symm

theorem degree_expand (f : ℕ → ℝ[X]) (s : ℕ) (hf : ∀ j, (f j).degree = (j + s : ℕ)) {a : ℕ} (x : Fin a → ℝ) :
    (expand f x).degree < (a + s : ℕ) := by
  rw [expand]
  refine lt_of_le_of_lt (degree_sum_le _ _) ?_
  rw [Finset.sup_lt_iff (WithBot.bot_lt_coe _)]
  intro j _
  refine lt_of_le_of_lt (degree_smul_le _ _) ?_
  rw [hf]
  exact_mod_cast (by have := j.2; omega : (j : ℕ) + s < a + s)

/-! ## The matrices -/

theorem expand_derivative (f : ℕ → ℝ[X]) (d : ℕ) {a : ℕ} (x : Fin a → ℝ) : expand (fun j => derivative^[d] (f j)) x = derivative^[d] (expand f x) := by
  simp only [expand, iterate_derivative_sum, iterate_derivative_smul]

theorem entry_form (q : Quad) (N : ℕ) (test trial : ℕ → ℝ[X]) (d : ℕ) {a b : ℕ} (x : Fin a → ℝ) (y : Fin b → ℝ) :
    x ⬝ᵥ (entry q N test trial d a b).mulVec y = quadrature q N (derivative^[d] (expand trial y) * expand test x) := by
  rw [← expand_derivative]
  rw [expand, expand, sum_mul_sum, sum_comm]
  simp only [dotProduct, Matrix.mulVec, entry, map_sum, smul_mul_smul_comm, map_smul, smul_eq_mul, mul_sum]
  refine sum_congr rfl fun i _ => sum_congr rfl fun j _ => by ring

theorem quad_exact_form (q : Quad) (N d : ℕ) (hN : 2 ≤ N) (hd : 1 ≤ d) (p r : ℝ[X]) (hp : p.degree < N) (hr : r.degree < N) :
    quadrature q N (derivative^[d] p * r) = wint (derivative^[d] p * r) := by
  apply quad_exact q N hN
  refine lt_of_le_of_lt degree_le_natDegree ?_
  have hlt : ∀ p : ℝ[X], p.degree < N → p.natDegree < N := fun p hp => by
    by_cases h : p = 0
    · rw [h, natDegree_zero]; omega
    · exact (natDegree_lt_iff_degree_lt h).2 hp
  have h1 := hlt p hp
  have h2 := hlt r hr
  have h3 := natDegree_iterate_derivative p d
  have h4 := natDegree_mul_le (p := derivative^[d] p) (q := r)
  exact_mod_cast (by omega : (derivative^[d] p * r).natDegree < 2 * (N - 1))

theorem second_neg (q : Quad) (N a : ℕ) (f : ℕ → ℝ[X]) (s : ℕ) (hN : a + s ≤ N) (h2 : 2 ≤ N) (hf : ∀ j, (f j).degree = (j + s : ℕ))
    (hd : ∀ x : Fin a → ℝ, ∃ r, expand f x = (1 - X ^ 2) * r) (x : Fin a → ℝ) (hx : x ≠ 0) :
    x ⬝ᵥ (entry q N f f 2 a a).mulVec x < 0 := by
  rw [entry_form]
  obtain ⟨r, hr⟩ := hd x
  have h0 := expand_ne_zero f s hf x hx
  have hdeg : (expand f x).degree < N := lt_of_lt_of_le (degree_expand f s hf x) (by exact_mod_cast hN)
  have hr0 : r ≠ 0 := fun h => h0 (by rw [hr, h, mul_zero])
  rw [quad_exact_form q N 2 h2 (by omega) _ _ hdeg hdeg]
  have h3 := second_coercive r
  have h4 := wint_sq_pos r hr0
  rw [← hr] at h3
  simp only [Function.iterate_succ, Function.iterate_zero, Function.comp_apply, id_eq]
  linarith

theorem fourth_pos (q : Quad) (N a : ℕ) (hN : a + 4 ≤ N) (x : Fin a → ℝ) (hx : x ≠ 0) :
    0 < x ⬝ᵥ (entry q N psi psi 4 a a).mulVec x := by
  rw [entry_form]
  obtain ⟨r, hr⟩ := expand_psi x
  have h0 := expand_ne_zero psi 4 degree_psi x hx
  have hdeg : (expand psi x).degree < N := lt_of_lt_of_le (degree_expand psi 4 degree_psi x) (by exact_mod_cast hN)
  have hr0 : r ≠ 0 := fun h => h0 (by rw [hr, h, mul_zero])
  rw [quad_exact_form q N 4 (by omega) (by omega) _ _ hdeg hdeg]
  have h3 := fourth_coercive r
  have h4 := wint_sq_pos r hr0
  rw [← hr] at h3
  simp only [Function.iterate_succ, Function.iterate_zero, Function.comp_apply, id_eq]
  linarith

theorem quadPoint_inj (q : Quad) (N : ℕ) (hN : 2 ≤ N) : Set.InjOn (quadPoint q N) (range N : Finset ℕ) := by
  have hpi := pi_pos
  have h2 : (2 : ℝ) ≤ N := by exact_mod_cast hN
  intro i hi j hj h
  have hi' : (i : ℝ) + 1 ≤ N := by exact_mod_cast (mem_range.1 (mem_coe.1 hi))
  have hj' : (j : ℝ) + 1 ≤ N := by exact_mod_cast (mem_range.1 (mem_coe.1 hj))
  cases q
  · have := injOn_cos (x₁ := π * (i + 1 / 2) / N) (by
        constructor
        · positivity
        · rw [div_le_iff₀ (by linarith)]; nlinarith) (by
        constructor
        · positivity
        · rw [div_le_iff₀ (by linarith)]; nlinarith) h
    have hN0 : (N : ℝ) ≠ 0 := by linarith
    field_simp at this
    have h3 : (i : ℝ) = j := by linarith
    exact_mod_cast h3
  · have hN0 : 0 < (N : ℝ) - 1 := by linarith
    have := injOn_cos (x₁ := π * i / (N - 1)) (by
        constructor
        · positivity
        · rw [div_le_iff₀ hN0]; nlinarith) (by
        constructor
        · positivity
        · rw [div_le_iff₀ hN0]; nlinarith) h
    have hN1 : (N : ℝ) - 1 ≠ 0 := hN0.ne'
    field_simp at this
    exact_mod_cast this

theorem quad_sq_pos (q : Quad) (N : ℕ) (hN : 2 ≤ N) (p : ℝ[X]) (hp : p.degree < N) (h0 : p ≠ 0) : 0 < quadrature q N (p * p) := by
  refine lt_of_le_of_ne (quad_sq_nonneg q N hN p) fun h => h0 ?_
  rw [quadrature_apply, eq_comm, sum_eq_zero_iff_of_nonneg fun j _ => mul_nonneg (quadWeight_pos q N hN j).le (by
    rw [eval_mul]; exact mul_self_nonneg _)] at h
  refine eq_zero_of_degree_lt_of_eval_index_eq_zero (v := quadPoint q N) (range N) (quadPoint_inj q N hN) (by simpa using hp) fun j hj => ?_
  have := h j hj
  rw [eval_mul, mul_eq_zero, mul_self_eq_zero] at this
  exact this.resolve_left (quadWeight_pos q N hN j).ne'

theorem mass_pos (q : Quad) (N a : ℕ) (f : ℕ → ℝ[X]) (s : ℕ) (hN : a + s ≤ N) (h2 : 2 ≤ N) (hf : ∀ j, (f j).degree = (j + s : ℕ))
    (x : Fin a → ℝ) (hx : x ≠ 0) : 0 < x ⬝ᵥ (entry q N f f 0 a a).mulVec x := by
  rw [entry_form]
  exact quad_sq_pos q N h2 _ (lt_of_lt_of_le (degree_expand f s hf x) (by exact_mod_cast hN)) (expand_ne_zero f s hf x hx)

/-! ## Solvability -/

theorem matC_bijective {a : ℕ} (A : Matrix (Fin a) (Fin a) ℝ) (h : ∀ x, x ≠ 0 → x ⬝ᵥ A.mulVec x ≠ 0) : Function.Bijective (matC A) := by
  have hdet : A.det ≠ 0 := fun h0 => by
    obtain ⟨v, hv, hv0⟩ := Matrix.exists_mulVec_eq_zero_iff.2 h0
    exact h v hv (by rw [hv0, dotProduct_zero])
  have hdetC : (A.map ((↑) : ℝ → ℂ)).det ≠ 0 := by
    have := RingHom.map_det (Complex.ofRealHom) A
    rw [RingHom.mapMatrix_apply] at this
    have h2 : (A.map ((↑) : ℝ → ℂ)).det = Complex.ofRealHom A.det := this.symm
    rw [h2]
    simpa using hdet
  have hinj : Function.Injective (matC A) := by
    rw [injective_iff_map_eq_zero]
    intro v hv
    rw [matC, Matrix.toLin'_apply] at hv
    by_contra hne
    exact hdetC (Matrix.exists_mulVec_eq_zero_iff.1 ⟨v, hne, hv⟩)
  exact ⟨hinj, LinearMap.surjective_of_injective hinj⟩

theorem matC_add {a b : ℕ} (A A' : Matrix (Fin a) (Fin b) ℝ) (v : Fin b → ℂ) : matC (A + A') v = matC A v + matC A' v := by
  have : (A + A').map ((↑) : ℝ → ℂ) = A.map (↑) + A'.map (↑) := by ext; simp
  rw [matC, this, map_add]; rfl

theorem matC_smul {a b : ℕ} (c : ℝ) (A : Matrix (Fin a) (Fin b) ℝ) (v : Fin b → ℂ) : matC (c • A) v = (c : ℂ) • matC A v := by
  have : (c • A).map ((↑) : ℝ → ℂ) = (c : ℂ) • A.map (↑) := by ext; simp
  rw [matC, this, map_smul]; rfl

theorem matC_neg {a b : ℕ} (A : Matrix (Fin a) (Fin b) ℝ) (v : Fin b → ℂ) : matC (-A) v = -matC A v := by
  have := matC_smul (-1) A v
  simpa using this

theorem helmholtz_bijective (q : Quad) (N a : ℕ) (f : ℕ → ℝ[X]) (s : ℕ) (hN : a + s ≤ N) (h2 : 2 ≤ N) (hf : ∀ j, (f j).degree = (j + s : ℕ))
    (hd : ∀ x : Fin a → ℝ, ∃ r, expand f x = (1 - X ^ 2) * r) (c : ℝ) (hc : 0 ≤ c) :
    Function.Bijective fun v => -matC (entry q N f f 2 a a) v + (c : ℂ) • matC (entry q N f f 0 a a) v := by
  have := matC_bijective (-entry q N f f 2 a a + c • entry q N f f 0 a a) fun x hx => by
    have h3 := second_neg q N a f s hN h2 hf hd x hx
    have h4 := mass_pos q N a f s hN h2 hf x hx
    rw [Matrix.add_mulVec, Matrix.neg_mulVec, Matrix.smul_mulVec, dotProduct_add, dotProduct_neg, dotProduct_smul, smul_eq_mul]
    have := mul_nonneg hc h4.le
    exact ne_of_gt (by linarith)
  convert this using 1
  exact _root_.funext fun v => by rw [matC_add, matC_neg, matC_smul]

theorem biharmonic_bijective (q : Quad) (N a : ℕ) (hN : a + 4 ≤ N) (c4 c2 c0 : ℝ) (h4 : c4 < 0) (h2 : 0 ≤ c2) (h0 : c0 ≤ 0) :
    Function.Bijective fun v => (c4 : ℂ) • matC (entry q N psi psi 4 a a) v + (c2 : ℂ) • matC (entry q N psi psi 2 a a) v
      + (c0 : ℂ) • matC (entry q N psi psi 0 a a) v := by
  have := matC_bijective (c4 • entry q N psi psi 4 a a + c2 • entry q N psi psi 2 a a + c0 • entry q N psi psi 0 a a) fun x hx => by
    have h5 := second_neg q N a psi 4 hN (by omega) degree_psi (fun x => by
      obtain ⟨r, hr⟩ := expand_psi x
      exact ⟨(1 - X ^ 2) * r, by rw [hr]; ring⟩) x hx
    have h6 := mass_pos q N a psi 4 hN (by omega) degree_psi x hx
    have h7 := fourth_pos q N a hN x hx
    simp only [Matrix.add_mulVec, Matrix.smul_mulVec, dotProduct_add, dotProduct_smul, smul_eq_mul]
    refine ne_of_lt ?_
    nlinarith [mul_pos (neg_pos.2 h4) h7, mul_nonneg h2 (neg_nonneg.2 h5.le), mul_nonneg (neg_nonneg.2 h0) h6.le]
  convert this using 1
  exact _root_.funext fun v => by rw [matC_add, matC_add, matC_smul, matC_smul, matC_smul]

end SpectralDNS.Channel

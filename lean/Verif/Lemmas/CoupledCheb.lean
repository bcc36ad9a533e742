import Verif.Model.CoupledCheb
import Verif.Props.Pressure
import Verif.Lemmas.GalerkinMatrices

/-!
# The block systems of the coupled solvers with the Chebyshev bases
-/

namespace SpectralDNS.Coupled

open Polynomial Channel ChebWeight

variable {n : ℕ}

/-! ## Biharmonic functions -/

/-- Polynomials vanishing at the walls with their derivatives are biharmonic functions. -/
theorem exists_psi (m : ℕ) (p : ℝ[X]) (hp : p.degree < (m + 4 : ℕ)) (h1 : p.eval 1 = 0) (h2 : p.eval (-1) = 0)
    (h3 : (derivative p).eval 1 = 0) (h4 : (derivative p).eval (-1) = 0) : ∃ x : Fin m → ℝ, expand psi x = p := by
  refine exists_expand psi 4 degree_psi (fun p => p.eval 1 = 0 ∧ p.eval (-1) = 0 ∧ (derivative p).eval 1 = 0 ∧ (derivative p).eval (-1) = 0)
    ?_ ?_ m p hp ⟨h1, h2, h3, h4⟩
  · rintro p j c ⟨ha, hb, hc, hd⟩
    have := psi_walls j
    simp [ha, hb, hc, hd, this]
  · rintro p hd ⟨ha, hb, hc, he⟩
    obtain ⟨r, hr⟩ := s_dvd p ha hb
    have e1 : r.eval 1 = 0 := by
      rw [hr] at hc
      simpa [derivative_mul] using hc
    have e2 : r.eval (-1) = 0 := by
      rw [hr] at he
      simpa [derivative_mul] using he
    obtain ⟨t, ht⟩ := s_dvd r e1 e2
    by_contra h
    have ht0 : t ≠ 0 := fun h' => h (by rw [hr, ht, h', mul_zero, mul_zero])
    have hs : (1 - X ^ 2 : ℝ[X]).degree = 2 := by
      have : (1 - X ^ 2 : ℝ[X]) = -(X ^ 2 - Polynomial.C 1) := by simp
      rw [this, degree_neg, degree_X_pow_sub_C (by norm_num)]; rfl
    rw [hr, ht, degree_mul, degree_mul, hs, degree_eq_natDegree ht0] at hd
    have : (2 + (2 + t.natDegree) : ℕ) < 4 := by exact_mod_cast hd
    omega

/-- Dirichlet functions with zero slope at the walls are biharmonic functions. -/
theorem exists_psiC (v : Fin (n + 2) → ℂ) (h1 : (derivative (expandC phi v)).eval 1 = 0) (h2 : (derivative (expandC phi v)).eval (-1) = 0) :
    ∃ u : Fin n → ℂ, expandC psi u = expandC phi v := by
  rw [← expandC_derivative] at h1 h2
  have k1 := expandC_eval (fun j => derivative (phi j)) v 1
  have k2 := expandC_eval (fun j => derivative (phi j)) v (-1)
  rw [Complex.ofReal_one, h1] at k1
  rw [Complex.ofReal_neg, Complex.ofReal_one, h2] at k2
  have split : ∀ a b : ℝ, (0 : ℂ) = (a : ℂ) + (b : ℂ) * Complex.I → a = 0 ∧ b = 0 := fun a b h => by
    have e1 := congrArg Complex.re h
    have e2 := congrArg Complex.im h
    simp at e1 e2
    exact ⟨e1.symm, e2.symm⟩
  obtain ⟨a1, b1⟩ := split _ _ k1
  obtain ⟨a2, b2⟩ := split _ _ k2
  have real : ∀ y : Fin (n + 2) → ℝ, (expand (fun j => derivative (phi j)) y).eval 1 = 0 →
      (expand (fun j => derivative (phi j)) y).eval (-1) = 0 → ∃ x : Fin n → ℝ, expand psi x = expand phi y := fun y e1 e2 => by
    have ed : expand (fun j => derivative (phi j)) y = derivative (expand phi y) := by
      have := expand_derivative phi 1 y
      simpa using this
    rw [ed] at e1 e2
    obtain ⟨r, hr⟩ := expand_phi y
    exact exists_psi n _ (degree_expand phi 2 degree_phi y) (by rw [hr]; simp) (by rw [hr]; simp) e1 e2
  obtain ⟨x, hx⟩ := real _ a1 a2
  obtain ⟨y, hy⟩ := real _ b1 b2
  refine ⟨(fun j => (x j : ℂ)) + Complex.I • fun j => (y j : ℂ), ?_⟩
  rw [map_add, map_smul, expandC_ofReal, expandC_ofReal, hx, hy, ← expandC_ofReal, ← expandC_ofReal, ← map_smul, ← map_add]
  congr 1
  funext j
  simp only [Pi.add_apply, Pi.smul_apply, smul_eq_mul]
  rw [mul_comm]
  exact Complex.re_add_im (v j)

/-! ## Testing with biharmonic functions -/

/-- Scalar products with combinations of the test functions. -/
theorem scalarProduct_comb (q : Quad) (N : ℕ) (f g : ℕ → ℝ[X]) {a b : ℕ} (i : Fin a) (x : Fin b → ℝ) (h : f i = expand g x) (r : ℂ[X]) :
    scalarProduct (a := a) q N f r i = ∑ l, (x l : ℂ) * scalarProduct (a := b) q N g r l := by
  simp only [scalarProduct_apply, h, expand, eval_finsetSum, eval_smul, smul_eq_mul, Finset.mul_sum]
  rw [Finset.sum_comm]
  refine Finset.sum_congr rfl fun j _ => ?_
  push_cast
  rw [Finset.sum_mul]
  exact Finset.sum_congr rfl fun l _ => by ring

theorem tested_psi (q : Quad) (r : ℂ[X]) (h : scalarProduct (a := n + 2) q (n + 4) phi r = 0) :
    scalarProduct (a := n) q (n + 4) psi r = 0 := by
  funext i
  obtain ⟨x, hx⟩ := exists_phi (n + 2) (psi i) (by rw [degree_psi]; exact_mod_cast (by have := i.2; omega : (i : ℕ) + 4 < n + 2 + 2))
    (psi_walls i).1 (psi_walls i).2.1
  rw [scalarProduct_comb q (n + 4) psi phi i x hx.symm, h]
  simp

/-- Partial integration against a biharmonic function. -/
theorem parts_psi (j : ℕ) : ∃ chi : ℝ[X], chi.eval 1 = 0 ∧ chi.eval (-1) = 0 ∧ chi.degree < (j + 4 : ℕ) ∧
    ∀ p : ℝ[X], wint (derivative p * psi j) = -wint (p * chi) := by
  obtain ⟨t, ht⟩ := psi_eq j
  refine ⟨(1 - X ^ 2) * (derivative ((1 - X ^ 2) * t) - X * t), by simp, by simp, ?_, fun p => ?_⟩
  · have ht0 : t ≠ 0 := fun h => by
      have := degree_psi j
      rw [ht, h, mul_zero, degree_zero] at this
      exact absurd this (WithBot.bot_ne_coe)
    have hs : (1 - X ^ 2 : ℝ[X]).degree = 2 := by
      have : (1 - X ^ 2 : ℝ[X]) = -(X ^ 2 - Polynomial.C 1) := by simp
      rw [this, degree_neg, degree_X_pow_sub_C (by norm_num)]; rfl
    have hdt : t.natDegree = j := by
      have := degree_psi j
      rw [ht, degree_mul, pow_two, degree_mul, hs, degree_eq_natDegree ht0] at this
      have : (2 + 2 + t.natDegree : ℕ) = j + 4 := by exact_mod_cast this
      omega
    refine lt_of_le_of_lt degree_le_natDegree ?_
    have hns : (1 - X ^ 2 : ℝ[X]).natDegree ≤ 2 := by
      have := degree_le_natDegree (p := (1 - X ^ 2 : ℝ[X]))
      exact natDegree_le_of_degree_le (by rw [hs]; rfl)
    have h1 : (derivative ((1 - X ^ 2) * t)).natDegree ≤ j + 1 := by
      refine (natDegree_derivative_le _).trans ?_
      have := natDegree_mul_le (p := (1 - X ^ 2 : ℝ[X])) (q := t)
      omega
    have h2 : (X * t).natDegree ≤ j + 1 := by
      have := natDegree_mul_le (p := (X : ℝ[X])) (q := t)
      have := natDegree_X_le (R := ℝ)
      omega
    have h3 := natDegree_sub_le (derivative ((1 - X ^ 2) * t)) (X * t)
    have h4 := natDegree_mul_le (p := (1 - X ^ 2 : ℝ[X])) (q := derivative ((1 - X ^ 2) * t) - X * t)
    exact_mod_cast (by omega : ((1 - X ^ 2) * (derivative ((1 - X ^ 2) * t) - X * t)).natDegree < j + 4)
  · have h := wint_parts (p * ((1 - X ^ 2) * t))
    rw [← sub_eq_zero, sub_neg_eq_add, ← map_add, ← h]
    congr 1
    rw [ht, derivative_mul (f := p)]
    ring

theorem quad_exact_nat (q : Quad) (N : ℕ) (hN : 2 ≤ N) (p r : ℝ[X]) (a b : ℕ) (hp : p.natDegree ≤ a) (hr : r.natDegree ≤ b) (h : a + b < 2 * (N - 1)) :
    quadrature q N (p * r) = wint (p * r) := by
  apply quad_exact q N hN
  refine lt_of_le_of_lt degree_le_natDegree ?_
  have := natDegree_mul_le (p := p) (q := r)
  exact_mod_cast (by omega : (p * r).natDegree < 2 * (N - 1))

/-- A polynomial without components along the Dirichlet functions has a derivative without components along the biharmonic functions. -/
theorem tested_derivative (q : Quad) (r : ℂ[X]) (hr : r.degree < (n + 4 : ℕ)) (h : scalarProduct (a := n + 2) q (n + 4) phi r = 0) :
    scalarProduct (a := n) q (n + 4) psi (derivative r) = 0 := by
  obtain ⟨v, rfl⟩ := exists_chebC (n + 4) r hr
  have e1 := entry_test (a := n) q (n + 4) (n + 4) 1 psi chebT v
  have e2 := entry_test (a := n + 2) q (n + 4) (n + 4) 0 phi chebT v
  rw [Function.iterate_one] at e1
  rw [Function.iterate_zero, id, h] at e2
  rw [← e1]
  funext i
  obtain ⟨chi, c1, c2, c3, hc⟩ := parts_psi i
  have hi := i.2
  obtain ⟨x, hx⟩ := exists_phi (n + 2) chi (lt_of_lt_of_le c3 (by exact_mod_cast (by omega : (i : ℕ) + 4 ≤ n + 2 + 2))) c1 c2
  have hT : ∀ j : Fin (n + 4), (chebT j).natDegree = j := fun j => natDegree_eq_of_degree_eq_some (by simpa using degree_chebT j)
  have hpsi : (psi i).natDegree = i + 4 := natDegree_eq_of_degree_eq_some (degree_psi i)
  have hchi : chi.natDegree ≤ i + 3 := by
    rw [natDegree_le_iff_degree_le]
    by_cases h0 : chi = 0
    · rw [h0, degree_zero]; exact bot_le
    · rw [degree_eq_natDegree h0] at c3 ⊢
      have : chi.natDegree < i + 4 := by exact_mod_cast c3
      exact_mod_cast (by omega : chi.natDegree ≤ i + 3)
  have key : ∀ j : Fin (n + 4), entry q (n + 4) psi chebT 1 n (n + 4) i j = -∑ l, x l * entry q (n + 4) phi chebT 0 (n + 2) (n + 4) l j := fun j => by
    have hj := j.2
    have a1 : entry q (n + 4) psi chebT 1 n (n + 4) i j = wint (derivative (chebT j) * psi i) := by
      refine quad_exact_nat q (n + 4) (by omega) _ _ ((j : ℕ) - 1) (i + 4) ?_ hpsi.le (by omega)
      rw [Function.iterate_one]
      exact (natDegree_derivative_le _).trans (by rw [hT])
    have a2 : ∑ l, x l * entry q (n + 4) phi chebT 0 (n + 2) (n + 4) l j = quadrature q (n + 4) (chebT j * chi) := by
      rw [← hx, expand, Finset.mul_sum, map_sum]
      refine Finset.sum_congr rfl fun l _ => ?_
      rw [mul_smul_comm, map_smul]; rfl
    rw [a1, a2, hc, quad_exact_nat q (n + 4) (by omega) (chebT j) chi j (i + 3) (hT j).le hchi (by omega)]
  have e3 : ∀ l, ∑ j, ((entry q (n + 4) phi chebT 0 (n + 2) (n + 4) l j : ℝ) : ℂ) * v j = 0 := fun l => by
    have := congrFun e2 l
    simpa [matC, Matrix.toLin'_apply, Matrix.mulVec, dotProduct] using this
  have : matC (entry q (n + 4) psi chebT 1 n (n + 4)) v i = ∑ j, ((entry q (n + 4) psi chebT 1 n (n + 4) i j : ℝ) : ℂ) * v j := by
    simp [matC, Matrix.toLin'_apply, Matrix.mulVec, dotProduct]
  rw [this]
  simp only [key, Complex.ofReal_neg, Complex.ofReal_sum, Complex.ofReal_mul, neg_mul, Finset.sum_neg_distrib, Finset.sum_mul]
  rw [Finset.sum_comm]
  simp only [mul_assoc, ← Finset.mul_sum, e3, mul_zero, Finset.sum_const_zero, neg_zero, Pi.zero_apply]

/-- Elimination of the pressure: three momentum equations tested with Dirichlet functions imply the equation for the wall-normal component
tested with biharmonic functions, `E` being solenoidal. -/
theorem eliminate (q : Quad) (k1 k2 d : ℂ) (E0 E1 E2 N0 N1 N2 p : ℂ[X]) (hE1 : E1.degree < (n + 4 : ℕ)) (hE2 : E2.degree < (n + 4 : ℕ))
    (hN1 : N1.degree < (n + 4 : ℕ)) (hN2 : N2.degree < (n + 4 : ℕ)) (hp : p.degree < (n + 4 : ℕ))
    (hdiv : derivative E0 + ((Complex.I * k1) • E1 + (Complex.I * k2) • E2) = 0)
    (h0 : scalarProduct (a := n + 2) q (n + 4) phi (E0 + d • derivative p - N0) = 0)
    (h1 : scalarProduct (a := n + 2) q (n + 4) phi (E1 + d • (Complex.I * k1) • p - N1) = 0)
    (h2 : scalarProduct (a := n + 2) q (n + 4) phi (E2 + d • (Complex.I * k2) • p - N2) = 0) :
    scalarProduct (a := n) q (n + 4) psi ((k1 * k1 + k2 * k2) • E0 - derivative^[2] E0
      - ((k1 * k1 + k2 * k2) • N0 + derivative ((Complex.I * k1) • N1 + (Complex.I * k2) • N2))) = 0 := by
  have hsm : ∀ (c : ℂ) (f : ℂ[X]), f.degree < (n + 4 : ℕ) → (c • f).degree < (n + 4 : ℕ) := fun c f hf =>
    lt_of_le_of_lt (degree_smul_le _ _) hf
  have hadd : ∀ f g : ℂ[X], f.degree < (n + 4 : ℕ) → g.degree < (n + 4 : ℕ) → (f + g).degree < (n + 4 : ℕ) := fun f g hf hg =>
    lt_of_le_of_lt (degree_add_le _ _) (max_lt hf hg)
  have hsub : ∀ f g : ℂ[X], f.degree < (n + 4 : ℕ) → g.degree < (n + 4 : ℕ) → (f - g).degree < (n + 4 : ℕ) := fun f g hf hg =>
    lt_of_le_of_lt (degree_sub_le _ _) (max_lt hf hg)
  set A1 := E1 + d • (Complex.I * k1) • p - N1
  set A2 := E2 + d • (Complex.I * k2) • p - N2
  have hA1 : A1.degree < (n + 4 : ℕ) := hsub _ _ (hadd _ _ hE1 (hsm _ _ (hsm _ _ hp))) hN1
  have hA2 : A2.degree < (n + 4 : ℕ) := hsub _ _ (hadd _ _ hE2 (hsm _ _ (hsm _ _ hp))) hN2
  have hQ := tested_derivative q ((Complex.I * k1) • A1 + (Complex.I * k2) • A2) (hadd _ _ (hsm _ _ hA1) (hsm _ _ hA2))
    (by rw [map_add, map_smul, map_smul, h1, h2, smul_zero, smul_zero, add_zero])
  have hP := tested_psi q _ h0
  have := congrArg₂ (fun x y => (k1 * k1 + k2 * k2) • x + y) hP hQ
  beta_reduce at this
  rw [smul_zero, add_zero, ← map_smul, ← map_add] at this
  rw [← this]
  congr 1
  have hd : derivative (derivative E0) + ((Complex.I * k1) • derivative E1 + (Complex.I * k2) • derivative E2) = 0 := by
    have := congrArg derivative hdiv
    simpa using this
  have hd' : derivative^[2] E0 = -((Complex.I * k1) • derivative E1 + (Complex.I * k2) • derivative E2) := eq_neg_of_add_eq_zero_left hd
  rw [hd']
  simp only [A1, A2, map_add, map_sub, derivative_smul]
  have hI : (C Complex.I : ℂ[X]) * C Complex.I = -1 := by rw [← C_mul, Complex.I_mul_I]; simp
  simp only [smul_eq_C_mul, C_mul, C_add]
  linear_combination (-(C d * C k1 * C k1 * derivative p) - (C d * C k2 * C k2 * derivative p)) * hI

/-! ## The blocks as scalar products -/

theorem phi_degree (v : Fin (n + 2) → ℂ) : (expandC phi v).degree < (n + 4 : ℕ) := expandC_degree phi 2 (n + 2) degree_phi v

theorem phi_wall (v : Fin (n + 2) → ℂ) : (expandC phi v).eval 1 = 0 ∧ (expandC phi v).eval (-1) = 0 := by
  have h1 := eval_wall phi v 1 fun j => (phi_walls j).1
  have h2 := eval_wall phi v (-1) fun j => (phi_walls j).2
  exact ⟨by simpa using h1, by simpa using h2⟩

theorem add_apply (q : Quad) (v : Fin (n + 2) → ℂ) : (chebMats q n).ADD v = scalarProduct q (n + 4) phi (derivative^[2] (expandC phi v)) :=
  entry_test q (n + 4) (n + 2) 2 phi phi v

theorem bdd_apply (q : Quad) (v : Fin (n + 2) → ℂ) : (chebMats q n).BDD v = scalarProduct q (n + 4) phi (expandC phi v) :=
  entry_test q (n + 4) (n + 2) 0 phi phi v

theorem cdp_apply (q : Quad) (p : Fin (n + 4) → ℂ) : (chebMats q n).CDP p = scalarProduct q (n + 4) phi (derivative (expandC chebT p)) :=
  entry_test q (n + 4) (n + 4) 1 phi chebT p

theorem bdp_apply (q : Quad) (p : Fin (n + 4) → ℂ) : (chebMats q n).BDP p = scalarProduct q (n + 4) phi (expandC chebT p) :=
  entry_test q (n + 4) (n + 4) 0 phi chebT p

theorem cpd_apply (q : Quad) (v : Fin (n + 2) → ℂ) : (chebMats q n).CPD v = scalarProduct q (n + 4) chebT (derivative (expandC phi v)) :=
  entry_test q (n + 4) (n + 2) 1 chebT phi v

theorem bpd_apply (q : Quad) (v : Fin (n + 2) → ℂ) : (chebMats q n).BPD v = scalarProduct q (n + 4) chebT (expandC phi v) :=
  entry_test q (n + 4) (n + 2) 0 chebT phi v

/-- The continuity rows hold exactly if the divergence is the zero polynomial. -/
theorem continuity_iff (q : Quad) (k1 k2 : ℂ) (u v w : Fin (n + 2) → ℂ) :
    (chebMats q n).CPD u + (Complex.I * k1) • (chebMats q n).BPD v + (Complex.I * k2) • (chebMats q n).BPD w = 0 ↔
      derivative (expandC phi u) + ((Complex.I * k1) • expandC phi v + (Complex.I * k2) • expandC phi w) = 0 := by
  rw [cpd_apply, bpd_apply, bpd_apply, ← map_smul (scalarProduct q (n + 4) chebT), ← map_smul (scalarProduct q (n + 4) chebT),
    ← map_add (scalarProduct q (n + 4) chebT), ← map_add (scalarProduct q (n + 4) chebT), add_assoc]
  constructor
  · intro h
    refine eq_zero_of_tested q (n + 4) (n + 4) (by omega) le_rfl _ ?_ fun i => congrFun h i
    refine lt_of_le_of_lt (degree_add_le _ _) (max_lt ?_ (lt_of_le_of_lt (degree_add_le _ _) (max_lt ?_ ?_)))
    · exact lt_of_le_of_lt degree_derivative_le (phi_degree u)
    · exact lt_of_le_of_lt (degree_smul_le _ _) (phi_degree v)
    · exact lt_of_le_of_lt (degree_smul_le _ _) (phi_degree w)
  · intro h
    rw [h, map_zero]

/-- A solenoidal velocity has a biharmonic wall-normal component. -/
theorem exists_biharmonic (k1 k2 : ℂ) (u v w : Fin (n + 2) → ℂ)
    (h : derivative (expandC phi u) + ((Complex.I * k1) • expandC phi v + (Complex.I * k2) • expandC phi w) = 0) :
    ∃ b : Fin n → ℂ, expandC psi b = expandC phi u := by
  have e : ∀ x : ℂ, (expandC phi v).eval x = 0 → (expandC phi w).eval x = 0 → (derivative (expandC phi u)).eval x = 0 := fun x h1 h2 => by
    have := congrArg (eval x) h
    simpa [h1, h2] using this
  exact exists_psiC u (e 1 (phi_wall v).1 (phi_wall w).1) (e (-1) (phi_wall v).2 (phi_wall w).2)

theorem phi_injective : Function.Injective (expandC phi : (Fin (n + 2) → ℂ) →ₗ[ℂ] ℂ[X]) := expandC_phi_injective (n + 2) phi 2 degree_phi

theorem psi_injective : Function.Injective (expandC psi : (Fin n → ℂ) →ₗ[ℂ] ℂ[X]) := expandC_phi_injective n psi 4 degree_psi

theorem helmholtz_zero (q : Quad) (a : ℝ) (ha : 0 ≤ a) (v : Fin (n + 2) → ℂ)
    (h : (a : ℂ) • (chebMats q n).BDD v - (chebMats q n).ADD v = 0) : v = 0 := by
  apply (Galerkin.dirichlet_bijective q n a ha).1
  beta_reduce
  rw [map_zero, map_zero, smul_zero, neg_zero, zero_add, neg_add_eq_sub]
  exact h

theorem cdp_row (q : Quad) (p : Fin (n + 4) → ℂ) (i : Fin (n + 2)) :
    (chebMats q n).CDP p i = (Real.pi * ((i : ℕ) + 1) : ℝ) * p i.succ.castSucc := by
  have key : ∀ j : Fin (n + 4), entry q (n + 4) phi chebT 1 (n + 2) (n + 4) i j = if j = i.succ.castSucc then Real.pi * ((i : ℕ) + 1) else 0 := fun j => by
    have hi := i.2
    have hj := j.2
    have hphi : (phi i).natDegree = i + 2 := natDegree_eq_of_degree_eq_some (degree_phi i)
    have hT : (chebT j).natDegree = j := natDegree_eq_of_degree_eq_some (by simpa using degree_chebT j)
    have a1 : entry q (n + 4) phi chebT 1 (n + 2) (n + 4) i j = wint (derivative (chebT j) * phi i) := by
      refine quad_exact_nat q (n + 4) (by omega) _ _ ((j : ℕ) - 1) (i + 2) ?_ hphi.le (by omega)
      rw [Function.iterate_one]
      exact (natDegree_derivative_le _).trans (by rw [hT])
    rw [a1, chebT, Chebyshev.T_derivative_eq_U]
    obtain h0 | ⟨m, hm⟩ : (j : ℕ) = 0 ∨ ∃ m : ℕ, (j : ℕ) = m + 1 := by
      rcases Nat.eq_zero_or_pos (j : ℕ) with h | h
      · exact Or.inl h
      · exact Or.inr ⟨j - 1, by omega⟩
    · rw [if_neg (fun e => by rw [e] at h0; simp at h0), h0]
      simp
    · have e : ((j : ℕ) : ℤ) - 1 = (m : ℤ) := by rw [hm]; push_cast; ring
      have e2 : (((j : ℕ) : ℤ) : ℝ[X]) = C ((m : ℝ) + 1) := by rw [hm]; simp
      rw [e, e2, mul_assoc, ← smul_eq_C_mul, map_smul, wint_U_phi, smul_eq_mul]
      by_cases hc : m = i
      · rw [if_pos hc, if_pos (Fin.ext (by simp [hm, hc])), hc]; ring
      · rw [if_neg hc, if_neg (fun e => hc (by rw [e] at hm; simp at hm; omega)), mul_zero]
  have : (chebMats q n).CDP p i = ∑ j, ((entry q (n + 4) phi chebT 1 (n + 2) (n + 4) i j : ℝ) : ℂ) * p j := by
    show matC _ _ _ = _
    simp [matC, Matrix.toLin'_apply, Matrix.mulVec, dotProduct]
  rw [this]
  simp only [key]
  rw [Finset.sum_eq_single i.succ.castSucc]
  · rw [if_pos rfl]
  · intro j _ hj
    rw [if_neg hj]; simp
  · simp

/-- A pressure whose derivative has no components along the Dirichlet functions: only the first and last coefficients are left. -/
theorem cdp_zero (q : Quad) (p : Fin (n + 4) → ℂ) (h : (chebMats q n).CDP p = 0) (j : Fin (n + 4)) (h0 : j ≠ 0) (h1 : j ≠ Fin.last _) : p j = 0 := by
  have hj : (j : ℕ) ≠ 0 := fun e => h0 (Fin.ext e)
  have hj' : (j : ℕ) ≠ n + 3 := fun e => h1 (Fin.ext e)
  have hlt := j.2
  obtain ⟨i, hi⟩ : ∃ i : Fin (n + 2), i.succ.castSucc = j := ⟨⟨j - 1, by omega⟩, Fin.ext (by simp; omega)⟩
  have := congrFun h i
  rw [cdp_row, hi, Pi.zero_apply, mul_eq_zero] at this
  refine this.resolve_left ?_
  have : Real.pi * ((i : ℕ) + 1) ≠ 0 := mul_ne_zero Real.pi_ne_zero (by positivity)
  exact_mod_cast this

theorem quad_T_phi (q : Quad) (j : Fin (n + 4)) (i : Fin (n + 2)) : entry q (n + 4) phi chebT 0 (n + 2) (n + 4) i j =
    quadrature q (n + 4) (Chebyshev.T ℝ ((j : ℕ) : ℤ) * Chebyshev.T ℝ ((i : ℕ) : ℤ))
      - quadrature q (n + 4) (Chebyshev.T ℝ ((j : ℕ) : ℤ) * Chebyshev.T ℝ (((i : ℕ) + 2 : ℕ) : ℤ)) := by
  rw [← map_sub, ← mul_sub]; rfl

/-- No pressure besides zero has value and derivative without components along the Dirichlet functions. -/
theorem pressure_zero (q : Quad) (p : Fin (n + 4) → ℂ) (h : (chebMats q n).CDP p = 0) (h' : (chebMats q n).BDP p = 0) : p = 0 := by
  have row : ∀ i : Fin (n + 2), ((entry q (n + 4) phi chebT 0 (n + 2) (n + 4) i 0 : ℝ) : ℂ) * p 0
      + ((entry q (n + 4) phi chebT 0 (n + 2) (n + 4) i (Fin.last _) : ℝ) : ℂ) * p (Fin.last _) = 0 := fun i => by
    have e : (chebMats q n).BDP p i = ∑ j, ((entry q (n + 4) phi chebT 0 (n + 2) (n + 4) i j : ℝ) : ℂ) * p j := by
      show matC _ _ _ = _
      simp [matC, Matrix.toLin'_apply, Matrix.mulVec, dotProduct]
    have e2 := e.symm.trans (congrFun h' i)
    rw [Fin.sum_univ_succ, Fin.sum_univ_castSucc, Finset.sum_eq_zero, zero_add] at e2
    · exact e2
    · intro j _
      rw [cdp_zero q p h _ (Fin.succ_ne_zero _) (fun e => by
        have := congrArg Fin.val e
        simp at this
        have := j.2
        omega), mul_zero]
  have ck := fun i j (hi : i ≤ n + 2 + 1) (hj : j ≤ n + 2 + 1) => quad_TT q (n + 2) i j hi hj
  have hpos : ∀ m : ℕ, m ≤ n + 3 → 0 < quadrature q (n + 4) (Chebyshev.T ℝ (m : ℤ) * Chebyshev.T ℝ (m : ℤ)) := fun m hm =>
    quad_sq_pos q (n + 4) (by omega) _ (by rw [Chebyshev.degree_T]; simp; exact_mod_cast (by omega : m < n + 4)) (fun e => by
      have := Chebyshev.degree_T ℝ (m : ℤ)
      rw [e, degree_zero] at this
      exact absurd this WithBot.bot_ne_coe)
  -- the first row gives the constant
  have r0 := row 0
  have e1 : entry q (n + 4) phi chebT 0 (n + 2) (n + 4) 0 (Fin.last _) = 0 := by
    rw [quad_T_phi, Fin.val_last, Fin.val_zero, ck _ _ (by omega) (by omega), ck _ _ (by omega) (by omega), if_neg (by omega), if_neg (by omega), sub_zero]
  have e2 : entry q (n + 4) phi chebT 0 (n + 2) (n + 4) 0 0 ≠ 0 := by
    rw [quad_T_phi]
    simp only [Fin.val_zero]
    rw [ck 0 (0 + 2) (by omega) (by omega), if_neg (by omega), sub_zero]
    exact (hpos 0 (by omega)).ne'
  rw [e1, Complex.ofReal_zero, zero_mul, add_zero, mul_eq_zero] at r0
  have p0 := r0.resolve_left (by exact_mod_cast e2)
  have r1 := row (Fin.last _)
  have e3 : entry q (n + 4) phi chebT 0 (n + 2) (n + 4) (Fin.last _) (Fin.last _) ≠ 0 := by
    rw [quad_T_phi]
    simp only [Fin.val_last]
    rw [ck (n + 3) (n + 1) (by omega) (by omega), if_neg (by omega), zero_sub]
    exact neg_ne_zero.2 (hpos (n + 3) le_rfl).ne'
  rw [p0, mul_zero, zero_add, mul_eq_zero] at r1
  have p1 := r1.resolve_left (by exact_mod_cast e3)
  funext j
  by_cases h0 : j = 0
  · rw [h0, p0]; rfl
  · by_cases h1 : j = Fin.last _
    · rw [h1, p1]; rfl
    · exact cdp_zero q p h j h0 h1

/-- The rows kept at the mean determine the wall-normal velocity there. -/
theorem rest_injective (q : Quad) (u : Fin (n + 2) → ℂ) (h : rest n ((chebMats q n).CPD u) = 0) : u = 0 := by
  set r := derivative (expandC phi u) with hr
  have hdeg : r.degree < (n + 3 : ℕ) := derivative_lt _ (phi_degree u)
  have hrow : ∀ i : Fin (n + 2), scalarProduct (a := n + 4) q (n + 4) chebT r i.succ.castSucc = 0 := fun i => by
    have := congrFun h i
    rw [cpd_apply] at this
    exact this
  obtain ⟨v, hv⟩ := exists_chebC (n + 3) r hdeg
  have hz : ∀ j : Fin (n + 3), j ≠ 0 → v j = 0 := fun j hj => by
    have hj0 : (j : ℕ) ≠ 0 := fun e => hj (Fin.ext e)
    have hlt := j.2
    have h1 := hrow ⟨j - 1, by omega⟩
    have e := congrFun (entry_test (a := n + 4) q (n + 4) (n + 3) 0 chebT chebT v) (Fin.succ ⟨j - 1, by omega⟩ : Fin (n + 3)).castSucc
    rw [Function.iterate_zero, id, hv, h1] at e
    have e2 : ∑ l, ((entry q (n + 4) chebT chebT 0 (n + 4) (n + 3) (Fin.succ ⟨j - 1, by omega⟩ : Fin (n + 3)).castSucc l : ℝ) : ℂ) * v l = 0 := by
      rw [← e]
      simp [matC, Matrix.toLin'_apply, Matrix.mulVec, dotProduct]
    have hval : (((Fin.succ ⟨j - 1, by omega⟩ : Fin (n + 3)).castSucc : Fin (n + 4)) : ℕ) = j := by simp; omega
    have key : ∀ l : Fin (n + 3), entry q (n + 4) chebT chebT 0 (n + 4) (n + 3) (Fin.succ ⟨j - 1, by omega⟩ : Fin (n + 3)).castSucc l
        = quadrature q (n + 4) (Chebyshev.T ℝ ((l : ℕ) : ℤ) * Chebyshev.T ℝ ((j : ℕ) : ℤ)) := fun l => by
      simp only [entry, Function.iterate_zero, id, hval, chebT]
    simp only [key] at e2
    rw [Finset.sum_eq_single j, mul_eq_zero] at e2
    · refine e2.resolve_left ?_
      have := quad_sq_pos q (n + 4) (by omega) (Chebyshev.T ℝ ((j : ℕ) : ℤ)) (by rw [Chebyshev.degree_T]; simp; exact_mod_cast (by omega : (j : ℕ) < n + 4))
        (fun e => by
          have := Chebyshev.degree_T ℝ ((j : ℕ) : ℤ)
          rw [e, degree_zero] at this
          exact absurd this WithBot.bot_ne_coe)
      exact_mod_cast this.ne'
    · intro l _ hl
      have := l.2
      rw [quad_TT q (n + 2) l j (by omega) (by omega), if_neg (fun e => hl (Fin.ext e))]
      simp
    · simp
  have hc : r = C (v 0) := by
    rw [← hv, expandC_apply, Finset.sum_eq_single 0]
    · simp [chebT, smul_eq_C_mul]
    · intro j _ hj
      rw [hz j hj, zero_smul]
    · simp
  have hd : derivative (expandC phi u - C (v 0) * X) = 0 := by
    rw [derivative_sub, ← hr, hc]; simp
  have hconst := eq_C_of_derivative_eq_zero hd
  set b := (expandC phi u - C (v 0) * X).coeff 0
  obtain ⟨w1, w2⟩ := phi_wall u
  have k1 := congrArg (eval 1) hconst
  have k2 := congrArg (eval (-1)) hconst
  simp only [eval_sub, eval_mul, eval_C, eval_X, w1, w2] at k1 k2
  have v0 : v 0 = 0 := by linear_combination (k2 - k1) / 2
  have b0 : b = 0 := by linear_combination -(k1 + k2) / 2
  rw [v0, b0] at hconst
  apply phi_injective
  rw [map_zero]
  simpa using hconst

end SpectralDNS.Coupled

import Verif.Lemmas.GalerkinDecay
import Verif.Lemmas.LUsolve

/-!
# The spaces spanned by the bases of the channel solvers
-/

namespace SpectralDNS.Channel

open Polynomial Finset

theorem expand_succ (f : ℕ → ℝ[X]) {m : ℕ} (x : Fin m → ℝ) (c : ℝ) : expand f (Fin.snoc x c : Fin (m + 1) → ℝ) = expand f x + c • f m := by
  simp [expand, Fin.sum_univ_castSucc]

/-- Polynomials of bounded degree with a property kept by subtracting basis functions are combinations of the basis functions. -/
theorem exists_expand (f : ℕ → ℝ[X]) (s : ℕ) (hf : ∀ j, (f j).degree = (j + s : ℕ)) (P : ℝ[X] → Prop)
    (hP : ∀ p j (c : ℝ), P p → P (p - c • f j)) (h0 : ∀ p : ℝ[X], p.degree < (s : WithBot ℕ) → P p → p = 0) (m : ℕ) (p : ℝ[X])
    (hp : p.degree < (m + s : ℕ)) (hPp : P p) : ∃ x : Fin m → ℝ, expand f x = p := by
  induction m generalizing p with
  | zero => exact ⟨0, by rw [h0 p (by simpa using hp) hPp]; simp [expand]⟩
  | succ m ih =>
    have hlead : (f m).coeff (m + s) ≠ 0 := coeff_ne_zero_of_eq_degree (hf m)
    obtain ⟨x, hx⟩ := ih (p - (p.coeff (m + s) / (f m).coeff (m + s)) • f m) (by
      rw [degree_lt_iff_coeff_zero]
      intro i hi
      rw [coeff_sub, coeff_smul, smul_eq_mul]
      rcases hi.eq_or_lt with rfl | h
      · field_simp; ring
      · rw [coeff_eq_zero_of_degree_lt (lt_of_lt_of_le hp (by exact_mod_cast (by omega : m + 1 + s ≤ i))),
          coeff_eq_zero_of_degree_lt (p := f m) (n := i) (by rw [hf]; exact_mod_cast h)]
        ring) (hP _ _ _ hPp)
    exact ⟨Fin.snoc x (p.coeff (m + s) / (f m).coeff (m + s)), by rw [expand_succ, hx]; abel⟩

theorem phi_walls (j : ℕ) : (phi j).eval 1 = 0 ∧ (phi j).eval (-1) = 0 := by
  rw [phi_eq]; simp

theorem psi_walls (j : ℕ) : (psi j).eval 1 = 0 ∧ (psi j).eval (-1) = 0 ∧ (derivative (psi j)).eval 1 = 0 ∧ (derivative (psi j)).eval (-1) = 0 := by
  obtain ⟨r, hr⟩ := psi_eq j
  rw [hr]
  refine ⟨by simp, by simp, ?_, ?_⟩ <;> simp [derivative_mul, derivative_pow]

/-- Polynomials vanishing at the walls are Dirichlet functions. -/
theorem exists_phi (m : ℕ) (p : ℝ[X]) (hp : p.degree < (m + 2 : ℕ)) (h1 : p.eval 1 = 0) (h2 : p.eval (-1) = 0) :
    ∃ x : Fin m → ℝ, expand phi x = p := by
  refine exists_expand phi 2 degree_phi (fun p => p.eval 1 = 0 ∧ p.eval (-1) = 0) ?_ ?_ m p hp ⟨h1, h2⟩
  · rintro p j c ⟨ha, hb⟩
    have := phi_walls j
    simp [ha, hb, this]
  · rintro p hd ⟨ha, hb⟩
    obtain ⟨r, hr⟩ := s_dvd p ha hb
    by_contra h
    have hr0 : r ≠ 0 := fun h' => h (by rw [hr, h', mul_zero])
    have hs : (1 - X ^ 2 : ℝ[X]).degree = 2 := by
      have : (1 - X ^ 2 : ℝ[X]) = -(X ^ 2 - Polynomial.C 1) := by simp
      rw [this, degree_neg, degree_X_pow_sub_C (by norm_num)]; rfl
    rw [hr, degree_mul, hs, degree_eq_natDegree hr0] at hd
    have : (2 + r.natDegree : ℕ) < 2 := by exact_mod_cast hd
    omega

/-- Any polynomial of low degree is a Chebyshev series. -/
theorem exists_cheb (m : ℕ) (p : ℝ[X]) (hp : p.degree < (m : ℕ)) : ∃ x : Fin m → ℝ, expand (fun j => Chebyshev.T ℝ (j : ℤ)) x = p :=
  exists_expand (fun j => Chebyshev.T ℝ (j : ℤ)) 0 (fun j => by rw [Chebyshev.degree_T]; simp) (fun _ => True) (fun _ _ _ _ => trivial)
    (fun p h _ => by
      by_contra h0
      rw [degree_eq_natDegree h0] at h
      exact absurd (by exact_mod_cast h : p.natDegree < 0) (by omega)) m p (by simpa using hp) trivial

theorem expandC_ofReal (f : ℕ → ℝ[X]) {a : ℕ} (x : Fin a → ℝ) : expandC f (fun j => (x j : ℂ)) = (expand f x).map Complex.ofRealHom := by
  rw [expandC_apply, expand, Polynomial.map_sum]
  refine sum_congr rfl fun j _ => ?_
  rw [smul_eq_C_mul, smul_eq_C_mul, Polynomial.map_mul, map_C]
  rfl

/-- If every function of one basis is in the span of another one, so are its complex combinations. -/
theorem exists_expandC (f g : ℕ → ℝ[X]) {a b : ℕ} (h : ∀ j : Fin a, ∃ x : Fin b → ℝ, expand g x = f j) :
    ∃ S : (Fin a → ℂ) → (Fin b → ℂ), ∀ v, expandC g (S v) = expandC f v := by
  choose x hx using h
  refine ⟨fun v => ∑ j, v j • fun i => (x j i : ℂ), fun v => ?_⟩
  rw [map_sum, expandC_apply]
  refine sum_congr rfl fun j _ => ?_
  rw [map_smul, expandC_ofReal, hx]

theorem expandC_derivative (f : ℕ → ℝ[X]) {a : ℕ} (v : Fin a → ℂ) : expandC (fun j => derivative (f j)) v = derivative (expandC f v) := by
  rw [expandC_apply, expandC_apply, derivative_sum]
  refine sum_congr rfl fun j _ => ?_
  rw [derivative_smul, derivative_map]

/-- The derivative of a biharmonic function is a Dirichlet function. -/
theorem derivative_psi (n : ℕ) (b : Fin n → ℂ) : ∃ d : Fin (n + 2) → ℂ, expandC phi d = derivative (expandC psi b) := by
  obtain ⟨S, hS⟩ := exists_expandC (fun j => derivative (psi j)) phi (a := n) (b := n + 2) fun j => by
    obtain ⟨-, -, h1, h2⟩ := psi_walls j
    refine exists_phi (n + 2) _ ?_ h1 h2
    refine lt_of_le_of_lt (degree_derivative_le) ?_
    rw [degree_psi]
    exact_mod_cast (by have := j.2; omega : (j : ℕ) + 4 < n + 2 + 2)
  exact ⟨S b, by rw [hS, expandC_derivative]⟩

theorem expandC_phi_injective (n : ℕ) (f : ℕ → ℝ[X]) (s : ℕ) (hf : ∀ j, (f j).degree = (j + s : ℕ)) :
    Function.Injective (expandC f : (Fin n → ℂ) →ₗ[ℂ] ℂ[X]) := by
  rw [← LinearMap.ker_eq_bot, LinearMap.ker_eq_bot']
  intro v hv
  have h : ∀ x : ℝ, (expand f fun j => (v j).re).eval x = 0 ∧ (expand f fun j => (v j).im).eval x = 0 := fun x => by
    have := expandC_eval f v x
    rw [hv, eval_zero] at this
    have h1 := congrArg Complex.re this
    have h2 := congrArg Complex.im this
    simp only [Complex.zero_re, Complex.zero_im, Complex.add_re, Complex.add_im, Complex.mul_re, Complex.mul_im, Complex.ofReal_re,
      Complex.ofReal_im, Complex.I_re, Complex.I_im] at h1 h2
    constructor <;> linarith
  have hr : (fun j => (v j).re) = 0 := by
    by_contra h0
    exact expand_ne_zero f s hf _ h0 (Polynomial.funext fun x => by rw [(h x).1, eval_zero])
  have hi : (fun j => (v j).im) = 0 := by
    by_contra h0
    exact expand_ne_zero f s hf _ h0 (Polynomial.funext fun x => by rw [(h x).2, eval_zero])
  funext j
  exact Complex.ext (congrFun hr j) (congrFun hi j)

/-- Coefficients are recovered by the quadrature: what `project` and `forward` do. -/
theorem mass_inv (q : Quad) (N a : ℕ) (f : ℕ → ℝ[X]) (s : ℕ) (hN : a + s ≤ N) (h2 : 2 ≤ N) (hf : ∀ j, (f j).degree = (j + s : ℕ)) (v : Fin a → ℂ) :
    matC (entry q N f f 0 a a)⁻¹ (scalarProduct q N f (expandC f v)) = v := by
  have h := entry_test (a := a) q N a 0 f f v
  rw [Function.iterate_zero, id] at h
  rw [← h]
  have hdet : IsUnit (entry q N f f 0 a a).det := by
    rw [isUnit_iff_ne_zero]
    intro h0
    obtain ⟨x, hx, hx0⟩ := Matrix.exists_mulVec_eq_zero_iff.2 h0
    have := mass_pos q N a f s hN h2 hf x hx
    rw [hx0, dotProduct_zero] at this
    exact lt_irrefl _ this
  simp only [matC, Matrix.toLin'_apply, Matrix.mulVec_mulVec]
  have : (entry q N f f 0 a a)⁻¹.map ((↑) : ℝ → ℂ) * (entry q N f f 0 a a).map (↑) = 1 := by
    have h3 := congrArg (fun A : Matrix (Fin a) (Fin a) ℝ => A.map Complex.ofRealHom) (Matrix.nonsing_inv_mul _ hdet)
    simp only [Matrix.map_mul] at h3
    rw [Matrix.map_one _ (map_zero _) (map_one _)] at h3
    exact h3
  rw [this, Matrix.one_mulVec]

end SpectralDNS.Channel

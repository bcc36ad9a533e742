import Verif.Lemmas.Galerkin
import Verif.Spec.Channel
import Mathlib.Topology.Algebra.Module.FiniteDimension
import Mathlib.Analysis.Normed.Module.FiniteDimension

/-! Decay of Crank-Nicolson steps for the Galerkin matrices. -/

namespace SpectralDNS.Channel

open Finset Matrix Spec.Channel

variable {a : ℕ}

/-- A positive quadratic form bounds a multiple of any other. -/
theorem quad_dominates (f g : (Fin a → ℝ) → ℝ) (hf : Continuous f) (hg : Continuous g) (hf2 : ∀ (t : ℝ) x, f (t • x) = t ^ 2 * f x)
    (hg2 : ∀ (t : ℝ) x, g (t • x) = t ^ 2 * g x) (hpos : ∀ x, x ≠ 0 → 0 < f x) : ∃ k : ℝ, 0 < k ∧ ∀ x, k * g x ≤ f x := by
  have f0 : f 0 = 0 := by simpa using hf2 0 0
  have g0 : g 0 = 0 := by simpa using hg2 0 0
  by_cases hne : (Metric.sphere (0 : Fin a → ℝ) 1).Nonempty
  · obtain ⟨x0, hx0, hmin⟩ := (isCompact_sphere (0 : Fin a → ℝ) 1).exists_isMinOn hne hf.continuousOn
    obtain ⟨x1, hx1, hmax⟩ := (isCompact_sphere (0 : Fin a → ℝ) 1).exists_isMaxOn hne hg.continuousOn
    have hx0' : x0 ≠ 0 := fun h => by simp [h] at hx0
    have hm := hpos x0 hx0'
    refine ⟨f x0 / (|g x1| + 1), by positivity, fun x => ?_⟩
    by_cases hx : x = 0
    · rw [hx, f0, g0, mul_zero]
    have hn : 0 < ‖x‖ := norm_pos_iff.2 hx
    have hs : ‖x‖⁻¹ • x ∈ Metric.sphere (0 : Fin a → ℝ) 1 := by
      rw [mem_sphere_zero_iff_norm, norm_smul, norm_inv, norm_norm, inv_mul_cancel₀ hn.ne']
    have e : x = ‖x‖ • (‖x‖⁻¹ • x) := by rw [smul_smul, mul_inv_cancel₀ hn.ne', one_smul]
    have h1 : f x0 ≤ f (‖x‖⁻¹ • x) := hmin hs
    have h2 : g (‖x‖⁻¹ • x) ≤ g x1 := hmax hs
    rw [e, hf2, hg2]
    generalize ‖x‖⁻¹ • x = y at h1 h2
    have h3 : f x0 / (|g x1| + 1) * g y ≤ f y := by
      rw [div_mul_eq_mul_div, div_le_iff₀ (by positivity)]
      have h4 : g y ≤ |g x1| + 1 := by have := le_abs_self (g x1); linarith
      nlinarith [mul_le_mul_of_nonneg_left h4 hm.le, abs_nonneg (g x1)]
    nlinarith [mul_le_mul_of_nonneg_left h3 (sq_nonneg ‖x‖)]
  · refine ⟨1, one_pos, fun x => ?_⟩
    have : x = 0 := by
      by_contra hx
      have hn : 0 < ‖x‖ := norm_pos_iff.2 hx
      exact hne ⟨‖x‖⁻¹ • x, by rw [mem_sphere_zero_iff_norm, norm_smul, norm_inv, norm_norm, inv_mul_cancel₀ hn.ne']⟩
    rw [this, f0, g0, mul_zero]

theorem form_continuous (A : Matrix (Fin a) (Fin a) ℝ) (L L' : (Fin a → ℝ) →ₗ[ℝ] (Fin a → ℝ)) :
    Continuous fun x => L x ⬝ᵥ A.mulVec (L' x) := by
  have h1 : Continuous L := L.continuous_of_finiteDimensional
  have h2 : Continuous L' := L'.continuous_of_finiteDimensional
  exact h1.dotProduct (Continuous.matrix_mulVec continuous_const h2)

/-- The energy of coefficients. -/
def form (B : Matrix (Fin a) (Fin a) ℝ) (x : Fin a → ℝ) : ℝ := x ⬝ᵥ B.mulVec x

theorem form_smul (B : Matrix (Fin a) (Fin a) ℝ) (t : ℝ) (x : Fin a → ℝ) : form B (t • x) = t ^ 2 * form B x := by
  simp only [form, mulVec_smul, dotProduct_smul, smul_dotProduct, smul_eq_mul]; ring

/-- Balance of energy over a step. -/
theorem cn_balance (B A : Matrix (Fin a) (Fin a) ℝ) (hB : B.IsSymm) (tau : ℝ) (x x' : Fin a → ℝ)
    (h : B.mulVec x' - tau • A.mulVec x' = B.mulVec x + tau • A.mulVec x) : form B x' - form B x = tau * form A (x + x') := by
  have h1 : B.mulVec (x' - x) = tau • A.mulVec (x + x') := by
    rw [mulVec_sub, mulVec_add, smul_add]
    linear_combination (exp := 1) h
  have h2 : (x + x') ⬝ᵥ B.mulVec (x' - x) = form B x' - form B x := by
    have hs : x ⬝ᵥ B.mulVec x' = x' ⬝ᵥ B.mulVec x := by
      rw [dotProduct_mulVec, ← mulVec_transpose, hB.eq, dotProduct_comm]
    simp only [form, mulVec_sub, dotProduct_sub, add_dotProduct, hs]
    ring
  rw [← h2, h1, dotProduct_smul, smul_eq_mul, form]

/-- A step never increases the energy. -/
theorem cn_mono (B A : Matrix (Fin a) (Fin a) ℝ) (hB : B.IsSymm) (hA : ∀ x, x ≠ 0 → form A x < 0) (tau : ℝ) (ht : 0 < tau)
    (x x' : Fin a → ℝ) (h : B.mulVec x' - tau • A.mulVec x' = B.mulVec x + tau • A.mulVec x) : form B x' ≤ form B x := by
  have := cn_balance B A hB tau x x' h
  have h0 : form A (x + x') ≤ 0 := by
    by_cases hx : x + x' = 0
    · simp [hx, form]
    · exact (hA _ hx).le
  nlinarith [mul_nonneg ht.le (neg_nonneg.2 h0)]

/-- A step shrinks the energy by a fixed factor. -/
theorem cn_contract (B A : Matrix (Fin a) (Fin a) ℝ) (hB : B.IsSymm) (hBpos : ∀ x, x ≠ 0 → 0 < form B x)
    (hA : ∀ x, x ≠ 0 → form A x < 0) (tau : ℝ) (ht : 0 < tau) : ∃ rho : ℝ, 0 ≤ rho ∧ rho < 1 ∧
      ∀ x x', B.mulVec x' - tau • A.mulVec x' = B.mulVec x + tau • A.mulVec x → form B x' ≤ rho * form B x := by
  -- x' = R x
  have hdet : (B - tau • A).det ≠ 0 := fun h0 => by
    obtain ⟨v, hv, hv0⟩ := Matrix.exists_mulVec_eq_zero_iff.2 h0
    have h1 : form B v - tau * form A v = 0 := by
      have := congrArg (v ⬝ᵥ ·) hv0
      simpa [sub_mulVec, smul_mulVec, dotProduct_sub, form] using this
    have h2 := hBpos v hv
    have h3 := hA v hv
    nlinarith [mul_pos ht (neg_pos.2 h3)]
  have hu : IsUnit (B - tau • A).det := isUnit_iff_ne_zero.2 hdet
  let R : (Fin a → ℝ) →ₗ[ℝ] (Fin a → ℝ) := Matrix.mulVecLin ((B - tau • A)⁻¹ * (B + tau • A))
  have hR : ∀ x x', B.mulVec x' - tau • A.mulVec x' = B.mulVec x + tau • A.mulVec x ↔ x' = R x := by
    intro x x'
    have e : B.mulVec x' - tau • A.mulVec x' = (B - tau • A).mulVec x' := by rw [sub_mulVec, smul_mulVec]
    have e' : B.mulVec x + tau • A.mulVec x = (B + tau • A).mulVec x := by rw [add_mulVec, smul_mulVec]
    rw [e, e']
    constructor
    · intro h
      rw [show R x = (B - tau • A)⁻¹.mulVec ((B + tau • A).mulVec x) by rw [mulVec_mulVec]; rfl, ← h, mulVec_mulVec,
        nonsing_inv_mul _ hu, one_mulVec]
    · rintro rfl
      rw [show R x = (B - tau • A)⁻¹.mulVec ((B + tau • A).mulVec x) by rw [mulVec_mulVec]; rfl, mulVec_mulVec, mul_nonsing_inv _ hu,
        one_mulVec]
  obtain ⟨k, hk, hle⟩ := quad_dominates (fun x => form B x - form B (R x)) (form B)
    ((form_continuous B LinearMap.id LinearMap.id).sub (form_continuous B R R)) (form_continuous B LinearMap.id LinearMap.id)
    (fun t x => by simp only [map_smul, form_smul]; ring) (form_smul B) (fun x hx => by
      have hb := cn_balance B A hB tau x (R x) ((hR x _).2 rfl)
      by_cases hs : x + R x = 0
      · have e : R x = -x := by rw [add_comm] at hs; exact eq_neg_of_add_eq_zero_left hs
        have h1 := (hR x _).2 rfl
        rw [e, mulVec_neg, mulVec_neg, smul_neg, sub_neg_eq_add] at h1
        have h2 : B.mulVec x = 0 := by
          funext i
          have := congrFun h1 i
          simp only [Pi.add_apply, Pi.neg_apply, Pi.smul_apply] at this
          rw [Pi.zero_apply]
          linarith
        have := hBpos x hx
        rw [form, h2, dotProduct_zero] at this
        exact absurd this (lt_irrefl _)
      · have := hA _ hs
        nlinarith [mul_pos ht (neg_pos.2 this)])
  refine ⟨max 0 (1 - k), le_max_left _ _, max_lt one_pos (by linarith), fun x x' h => ?_⟩
  rw [(hR x x').1 h]
  have h1 := hle x
  have h2 : 0 ≤ form B x := by
    by_cases hx : x = 0
    · simp [hx, form]
    · exact (hBpos x hx).le
  nlinarith [mul_le_mul_of_nonneg_right (le_max_right 0 (1 - k)) h2]

/-! ## Complex coefficients -/

theorem matC_re {b : ℕ} (A : Matrix (Fin a) (Fin b) ℝ) (v : Fin b → ℂ) : (fun i => (matC A v i).re) = A.mulVec fun j => (v j).re := by
  funext i
  simp [matC, Matrix.toLin'_apply, mulVec, dotProduct]

theorem matC_im {b : ℕ} (A : Matrix (Fin a) (Fin b) ℝ) (v : Fin b → ℂ) : (fun i => (matC A v i).im) = A.mulVec fun j => (v j).im := by
  funext i
  simp [matC, Matrix.toLin'_apply, mulVec, dotProduct]

/-- Energy of complex coefficients. -/
def formC (B : Matrix (Fin a) (Fin a) ℝ) (v : Fin a → ℂ) : ℝ := form B (fun j => (v j).re) + form B fun j => (v j).im

theorem cn_split (B A : Matrix (Fin a) (Fin a) ℝ) (nu dt : ℝ) (v v' : Fin a → ℂ) (h : CrankNicolson (matC B) (matC A) nu dt 0 v v') :
    (B.mulVec (fun j => (v' j).re) - (nu * dt / 2) • A.mulVec (fun j => (v' j).re) =
      B.mulVec (fun j => (v j).re) + (nu * dt / 2) • A.mulVec (fun j => (v j).re)) ∧
    (B.mulVec (fun j => (v' j).im) - (nu * dt / 2) • A.mulVec (fun j => (v' j).im) =
      B.mulVec (fun j => (v j).im) + (nu * dt / 2) • A.mulVec (fun j => (v j).im)) := by
  rw [CrankNicolson, smul_zero, add_zero] at h
  constructor
  · rw [← matC_re, ← matC_re, ← matC_re, ← matC_re]
    funext i
    have := congrArg Complex.re (congrFun h i)
    simpa only [Pi.sub_apply, Pi.add_apply, Pi.smul_apply, smul_eq_mul, Complex.sub_re, Complex.add_re, Complex.re_ofReal_mul] using this
  · rw [← matC_im, ← matC_im, ← matC_im, ← matC_im]
    funext i
    have := congrArg Complex.im (congrFun h i)
    simpa only [Pi.sub_apply, Pi.add_apply, Pi.smul_apply, smul_eq_mul, Complex.sub_im, Complex.add_im, Complex.im_ofReal_mul] using this

theorem mass_symm (q : Quad) (N : ℕ) (f : ℕ → Polynomial ℝ) : (entry q N f f 0 a a).IsSymm := by
  ext i j
  simp [entry, mul_comm]

theorem chebC_contract (q : Quad) (n : ℕ) (nu dt : ℝ) (hnu : 0 < nu) (hdt : 0 < dt) : ∃ rho : ℝ, 0 ≤ rho ∧ rho < 1 ∧
    ∀ v v', CrankNicolson (chebMats q n).BDD0 (chebMats q n).ADD0 nu dt 0 v v' →
      formC (entry q (n + 4) phi phi 0 (n + 2) (n + 2)) v' ≤ rho * formC (entry q (n + 4) phi phi 0 (n + 2) (n + 2)) v := by
  obtain ⟨rho, h0, h1, h⟩ := cn_contract (entry q (n + 4) phi phi 0 (n + 2) (n + 2)) (entry q (n + 4) phi phi 2 (n + 2) (n + 2)) (mass_symm _ _ _)
    (fun x hx => mass_pos q (n + 4) (n + 2) phi 2 le_rfl (by omega) degree_phi x hx)
    (fun x hx => second_neg q (n + 4) (n + 2) phi 2 le_rfl (by omega) degree_phi expand_phi x hx) (nu * dt / 2) (by positivity)
  refine ⟨rho, h0, h1, fun v v' hv => ?_⟩
  obtain ⟨hr, hi⟩ := cn_split _ _ nu dt v v' hv
  have := h _ _ hr
  have := h _ _ hi
  rw [formC, formC, mul_add]
  linarith

theorem chebC_mono (q : Quad) (n : ℕ) (nu dt : ℝ) (hnu : 0 < nu) (hdt : 0 < dt) (v v')
    (hv : CrankNicolson (chebMats q n).BDD0 (chebMats q n).ADD0 nu dt 0 v v') :
      formC (entry q (n + 4) phi phi 0 (n + 2) (n + 2)) v' ≤ formC (entry q (n + 4) phi phi 0 (n + 2) (n + 2)) v := by
  obtain ⟨rho, h0, h1, h⟩ := chebC_contract q n nu dt hnu hdt
  obtain ⟨hr, hi⟩ := cn_split _ _ nu dt v v' hv
  have hm := fun x x' => cn_mono (entry q (n + 4) phi phi 0 (n + 2) (n + 2)) (entry q (n + 4) phi phi 2 (n + 2) (n + 2)) (mass_symm _ _ _)
    (fun x hx => second_neg q (n + 4) (n + 2) phi 2 le_rfl (by omega) degree_phi expand_phi x hx) (nu * dt / 2) (by positivity) x x'
  have := hm _ _ hr
  have := hm _ _ hi
  rw [formC, formC]
  linarith

theorem scalarProduct_apply (q : Quad) (N : ℕ) (f : ℕ → Polynomial ℝ) (p : Polynomial ℂ) (i : Fin a) :
    scalarProduct q N f p i = ∑ j ∈ range N, (quadWeight q N j * (f i).eval (quadPoint q N j) : ℝ) * p.eval (quadPoint q N j : ℂ) := by
  simp [scalarProduct, LinearMap.sum_apply]

theorem expandC_apply (f : ℕ → Polynomial ℝ) (v : Fin a → ℂ) : expandC f v = ∑ j : Fin a, v j • (f j).map Complex.ofRealHom := by
  simp [expandC, LinearMap.sum_apply]

theorem expandC_eval (f : ℕ → Polynomial ℝ) (v : Fin a → ℂ) (x : ℝ) :
    (expandC f v).eval (x : ℂ) = ((expand f fun j => (v j).re).eval x : ℝ) + ((expand f fun j => (v j).im).eval x : ℝ) * Complex.I := by
  rw [expandC_apply, Polynomial.eval_finsetSum, expand, expand, Polynomial.eval_finsetSum, Polynomial.eval_finsetSum]
  push_cast
  rw [sum_mul, ← sum_add_distrib]
  refine sum_congr rfl fun j _ => ?_
  have : Polynomial.eval (x : ℂ) ((f j).map Complex.ofRealHom) = ((f j).eval x : ℝ) := by
    rw [Polynomial.eval_map]
    exact Polynomial.eval₂_at_apply Complex.ofRealHom x
  rw [Polynomial.eval_smul, Polynomial.eval_smul, Polynomial.eval_smul, this]
  simp only [smul_eq_mul, Complex.ofReal_mul]
  nth_rw 1 [← Complex.re_add_im (v j)]
  ring

theorem eval_ofReal (p : Polynomial ℝ) (x : ℝ) : (p.map Complex.ofRealHom).eval (x : ℂ) = (p.eval x : ℝ) := by
  rw [Polynomial.eval_map]
  exact Polynomial.eval₂_at_apply Complex.ofRealHom x

theorem entry_test (q : Quad) (N b d : ℕ) (test trial : ℕ → Polynomial ℝ) (v : Fin b → ℂ) :
    matC (entry q N test trial d a b) v = scalarProduct q N test (Polynomial.derivative^[d] (expandC trial v)) := by
  funext i
  rw [expandC_apply, Polynomial.iterate_derivative_sum, map_sum, Finset.sum_apply]
  simp only [matC, Matrix.toLin'_apply, mulVec, dotProduct, Matrix.map_apply]
  refine sum_congr rfl fun j _ => ?_
  rw [Polynomial.iterate_derivative_smul, map_smul, Pi.smul_apply, smul_eq_mul, mul_comm]
  congr 1
  rw [Polynomial.iterate_derivative_map, scalarProduct_apply, entry, quadrature_apply]
  push_cast
  refine sum_congr rfl fun m _ => ?_
  rw [eval_ofReal, Polynomial.eval_mul]
  push_cast
  ring

theorem formC_energy (q : Quad) (N : ℕ) (f : ℕ → Polynomial ℝ) (v : Fin a → ℂ) : formC (entry q N f f 0 a a) v =
    ∑ j ∈ range N, quadWeight q N j * ‖(expandC f v).eval (quadPoint q N j : ℂ)‖ ^ 2 := by
  rw [formC, form, form, entry_form, entry_form, quadrature_apply, quadrature_apply, ← sum_add_distrib]
  refine sum_congr rfl fun j _ => ?_
  rw [expandC_eval, Complex.sq_norm, Complex.normSq_add_mul_I, Function.iterate_zero, id, id, Polynomial.eval_mul, Polynomial.eval_mul]
  ring

end SpectralDNS.Channel

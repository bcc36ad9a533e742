import Verif.Lemmas.GalerkinDecay
import Verif.Lemmas.GalerkinMatrices
import Verif.Lemmas.GalerkinSpace
import Mathlib.Analysis.InnerProductSpace.PiL2

/-!
# Crank-Nicolson with a residual in the Galerkin heat equation of the channel
-/

namespace SpectralDNS.Heat

open Polynomial Finset Channel ComplexConjugate Matrix

/-- The values of a function at the quadrature points, with the roots of the weights. -/
noncomputable def samp (q : Quad) (N : ℕ) (f : ℝ → ℂ) : EuclideanSpace ℂ (Fin N) :=
  WithLp.toLp 2 fun j : Fin N => (Real.sqrt (quadWeight q N j) : ℂ) * f (quadPoint q N j)

/-- A polynomial as a function on the channel. -/
noncomputable def pol (p : ℂ[X]) (x : ℝ) : ℂ := p.eval (x : ℂ)

variable (q : Quad) (N : ℕ)

theorem samp_add (f g : ℝ → ℂ) : samp q N (fun x => f x + g x) = samp q N f + samp q N g := by
  ext j; simp [samp, mul_add]

theorem samp_sub (f g : ℝ → ℂ) : samp q N (fun x => f x - g x) = samp q N f - samp q N g := by
  ext j; simp [samp, mul_sub]

theorem samp_smul (c : ℂ) (f : ℝ → ℂ) : samp q N (fun x => c * f x) = c • samp q N f := by
  ext j; simp [samp, mul_left_comm]

theorem samp_sq (hN : 2 ≤ N) (f : ℝ → ℂ) : ‖samp q N f‖ ^ 2 = ∑ j ∈ range N, quadWeight q N j * ‖f (quadPoint q N j)‖ ^ 2 := by
  rw [EuclideanSpace.norm_sq_eq, ← Fin.sum_univ_eq_sum_range fun j => quadWeight q N j * ‖f (quadPoint q N j)‖ ^ 2]
  refine sum_congr rfl fun j _ => ?_
  simp only [samp]
  rw [norm_mul, mul_pow, Complex.norm_real, Real.norm_eq_abs, sq_abs, Real.sq_sqrt (quadWeight_pos q N hN j).le]

theorem weight_sum (hN : 2 ≤ N) : ∑ j ∈ range N, quadWeight q N j = Real.pi := by
  cases q
  · simp only [quadWeight, sum_const, card_range, nsmul_eq_mul]
    field_simp
  · obtain ⟨M, rfl⟩ : ∃ M, N = M + 2 := ⟨N - 2, by omega⟩
    rw [sum_range_succ, sum_range_succ']
    have h : ∀ i ∈ range M, quadWeight .GL (M + 2) (i + 1) = Real.pi / (M + 1) := by
      intro i hi
      have := mem_range.1 hi
      rw [quadWeight, if_neg (by omega)]
      push_cast; congr 1; ring
    rw [sum_congr rfl h]
    simp only [quadWeight, sum_const, card_range, nsmul_eq_mul, true_or, if_true, show M + 1 = M + 2 - 1 by omega, or_true]
    have hM : ((M : ℝ) + 1) ≠ 0 := by positivity
    have e : ((M + 2 : ℕ) : ℝ) - 1 = M + 1 := by push_cast; ring
    rw [e]
    field_simp
    ring

theorem samp_le (hN : 2 ≤ N) {f : ℝ → ℂ} {B : ℝ} (hB : 0 ≤ B) (h : ∀ x : ℝ, |x| ≤ 1 → ‖f x‖ ≤ B) (hq : ∀ j, |quadPoint q N j| ≤ 1) :
    ‖samp q N f‖ ≤ Real.sqrt Real.pi * B := by
  rw [← abs_of_nonneg (norm_nonneg (samp q N f)), ← abs_of_nonneg (show 0 ≤ Real.sqrt Real.pi * B by positivity), ← sq_le_sq, samp_sq q N hN,
    mul_pow, Real.sq_sqrt Real.pi_pos.le, ← weight_sum q N hN, sum_mul]
  exact sum_le_sum fun j _ => mul_le_mul_of_nonneg_left (pow_le_pow_left₀ (norm_nonneg _) (h _ (hq j)) 2) (quadWeight_pos q N hN j).le

theorem test_inner (hN : 2 ≤ N) {a : ℕ} (s : Fin a → ℂ) (f : ℕ → ℝ[X]) (p : ℂ[X]) :
    ∑ i, conj (s i) * scalarProduct q N f p i = inner ℂ (samp q N (pol (expandC f s))) (samp q N (pol p)) := by
  rw [PiLp.inner_apply]
  simp only [RCLike.inner_apply, samp, scalarProduct_apply, pol]
  rw [Fin.sum_univ_eq_sum_range (fun j => (Real.sqrt (quadWeight q N j) : ℂ) * p.eval (quadPoint q N j : ℂ) *
    conj ((Real.sqrt (quadWeight q N j) : ℂ) * (expandC f s).eval (quadPoint q N j : ℂ)))]
  simp only [mul_sum]
  rw [sum_comm]
  refine sum_congr rfl fun j _ => ?_
  have hw : ((Real.sqrt (quadWeight q N j) : ℂ)) * Real.sqrt (quadWeight q N j) = (quadWeight q N j : ℝ) := by
    rw [← Complex.ofReal_mul, Real.mul_self_sqrt (quadWeight_pos q N hN j).le]
  rw [map_mul, Complex.conj_ofReal, expandC_apply, eval_finsetSum, map_sum]
  simp only [eval_smul, smul_eq_mul, map_mul, eval_ofReal, Complex.conj_ofReal]
  rw [mul_sum, mul_sum]
  refine sum_congr rfl fun i _ => ?_
  push_cast
  linear_combination (-(conj (s i) * ((f i).eval (quadPoint q N j) : ℝ) * p.eval (quadPoint q N j : ℂ))) * hw

theorem inner_second (n : ℕ) (s : Fin (n + 2) → ℂ) : (inner ℂ (samp q (n + 4) (pol (expandC phi s)))
    (samp q (n + 4) (pol (derivative (derivative (expandC phi s)))))).re ≤ 0 := by
  have e : derivative (derivative (expandC phi s)) = derivative^[2] (expandC phi s) := rfl
  rw [e, ← test_inner q (n + 4) (by omega), ← entry_test q (n + 4) (n + 2) 2 phi phi s, Complex.re_sum]
  have hneg : ∀ x : Fin (n + 2) → ℝ, x ⬝ᵥ (entry q (n + 4) phi phi 2 (n + 2) (n + 2)).mulVec x ≤ 0 := fun x => by
    by_cases hx : x = 0
    · simp [hx]
    · exact (second_neg q (n + 4) (n + 2) phi 2 le_rfl (by omega) degree_phi expand_phi x hx).le
  have h1 := hneg fun j => (s j).re
  have h2 := hneg fun j => (s j).im
  rw [← matC_re] at h1
  rw [← matC_im] at h2
  have h3 : ∑ i, (conj (s i) * matC (entry q (n + 4) phi phi 2 (n + 2) (n + 2)) s i).re =
      (fun j => (s j).re) ⬝ᵥ (fun i => (matC (entry q (n + 4) phi phi 2 (n + 2) (n + 2)) s i).re) +
      (fun j => (s j).im) ⬝ᵥ (fun i => (matC (entry q (n + 4) phi phi 2 (n + 2) (n + 2)) s i).im) := by
    rw [dotProduct, dotProduct, ← sum_add_distrib]
    refine sum_congr rfl fun i _ => ?_
    rw [Complex.mul_re, Complex.conj_re, Complex.conj_im]; ring
  rw [h3]
  linarith

/-- A step with a residual changes the norm by no more than the norm of the residual, whatever the step size. -/
theorem cn_stable (n : ℕ) {nu h : ℝ} (hnu : 0 ≤ nu) (hh : 0 ≤ h) (v v' : Fin (n + 2) → ℂ) (R : ℂ[X])
    (hs : (chebMats q n).BDD0 (v' - v) - ((nu * h / 2 : ℝ) : ℂ) • (chebMats q n).ADD0 (v' + v) = scalarProduct q (n + 4) phi R) :
    ‖samp q (n + 4) (pol (expandC phi v'))‖ ≤ ‖samp q (n + 4) (pol (expandC phi v))‖ + ‖samp q (n + 4) (pol R)‖ := by
  set E := fun p : ℂ[X] => samp q (n + 4) (pol p) with hE
  have hN : 2 ≤ n + 4 := by omega
  have e0 : (chebMats q n).BDD0 (v' - v) = scalarProduct q (n + 4) phi (expandC phi (v' - v)) := entry_test q (n + 4) (n + 2) 0 phi phi _
  have e2 : (chebMats q n).ADD0 (v' + v) = scalarProduct q (n + 4) phi (derivative (derivative (expandC phi (v' + v)))) :=
    entry_test q (n + 4) (n + 2) 2 phi phi _
  have key : inner ℂ (E (expandC phi (v' + v))) (E (expandC phi (v' - v))) -
      ((nu * h / 2 : ℝ) : ℂ) * inner ℂ (E (expandC phi (v' + v))) (E (derivative (derivative (expandC phi (v' + v))))) =
      inner ℂ (E (expandC phi (v' + v))) (E R) := by
    simp only [hE, ← test_inner q (n + 4) hN]
    rw [mul_sum, ← sum_sub_distrib]
    refine sum_congr rfl fun i _ => ?_
    have := congrFun hs i
    rw [e0, e2, Pi.sub_apply, Pi.smul_apply, smul_eq_mul] at this
    rw [← this]; ring
  have hadd : E (expandC phi (v' + v)) = E (expandC phi v') + E (expandC phi v) := by
    rw [hE, ← samp_add]; refine congrArg (samp q (n + 4)) (_root_.funext fun x => ?_); simp [pol]
  have hsub : E (expandC phi (v' - v)) = E (expandC phi v') - E (expandC phi v) := by
    rw [hE, ← samp_sub]; refine congrArg (samp q (n + 4)) (_root_.funext fun x => ?_); simp [pol]
  have h2 := inner_second q n (v' + v)
  have h3 := congrArg Complex.re key
  rw [Complex.sub_re, Complex.re_ofReal_mul] at h3
  have h4 : (inner ℂ (E (expandC phi (v' + v))) (E (expandC phi (v' - v)))).re = ‖E (expandC phi v')‖ ^ 2 - ‖E (expandC phi v)‖ ^ 2 := by
    rw [hadd, hsub, inner_add_left, inner_sub_right, inner_sub_right]
    simp only [Complex.add_re, Complex.sub_re]
    have a1 := inner_self_eq_norm_sq (𝕜 := ℂ) (E (expandC phi v'))
    have a2 := inner_self_eq_norm_sq (𝕜 := ℂ) (E (expandC phi v))
    have a3 := inner_re_symm (𝕜 := ℂ) (E (expandC phi v')) (E (expandC phi v))
    simp only [RCLike.re_to_complex] at a1 a2 a3
    linarith
  have h5 : (inner ℂ (E (expandC phi (v' + v))) (E R)).re ≤ (‖E (expandC phi v')‖ + ‖E (expandC phi v)‖) * ‖E R‖ :=
    (re_inner_le_norm (𝕜 := ℂ) _ _).trans (mul_le_mul_of_nonneg_right (by rw [hadd]; exact norm_add_le _ _) (norm_nonneg _))
  have h6 : 0 ≤ -(nu * h / 2 * (inner ℂ (E (expandC phi (v' + v))) (E (derivative (derivative (expandC phi (v' + v)))))).re) := by
    have : nu * h / 2 * (inner ℂ (E (expandC phi (v' + v))) (E (derivative (derivative (expandC phi (v' + v)))))).re ≤ 0 :=
      mul_nonpos_of_nonneg_of_nonpos (by positivity) h2
    linarith
  have h7 : ‖E (expandC phi v')‖ ^ 2 - ‖E (expandC phi v)‖ ^ 2 ≤ (‖E (expandC phi v')‖ + ‖E (expandC phi v)‖) * ‖E R‖ := by linarith
  have n1 := norm_nonneg (E (expandC phi v'))
  have n2 := norm_nonneg (E (expandC phi v))
  have n3 := norm_nonneg (E R)
  show ‖E (expandC phi v')‖ ≤ ‖E (expandC phi v)‖ + ‖E R‖
  by_contra hc
  push Not at hc
  nlinarith

end SpectralDNS.Heat

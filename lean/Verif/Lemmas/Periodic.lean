import Verif.Model.Periodic
import Verif.Spec.Fourier
import Verif.Lemmas.Invariant
import Mathlib.Tactic.Ring
import Mathlib.Algebra.BigOperators.Field
import Mathlib.Tactic.LinearCombination
import Mathlib.Tactic.FinCases
import Mathlib.Tactic.FieldSimp
import Mathlib.Tactic.Linarith
import Mathlib.Algebra.Order.BigOperators.Group.Finset
import Mathlib.Algebra.Order.BigOperators.Ring.Finset

/-! Auxiliary lemmas on the periodic solver model. -/

namespace SpectralDNS.Periodic

open Complex

variable {ι X : Type*} {d : ℕ}

theorem K2_eq (K : Fin d → ι → ℝ) (k : ι) : K2 K k = Spec.normSq (Spec.at' K k) := by
  simp [K2, Spec.normSq, Spec.at', pow_two]

theorem K2_nonneg (K : Fin d → ι → ℝ) (k : ι) : 0 ≤ K2 K k := Finset.sum_nonneg fun _ _ => mul_self_nonneg _

theorem K2_eq_zero (K : Fin d → ι → ℝ) (k : ι) : K2 K k = 0 ↔ ∀ i, K i k = 0 := by
  rw [K2, Finset.sum_eq_zero_iff_of_nonneg fun _ _ => mul_self_nonneg _]
  simp

theorem KoK2_mul (K : Fin d → ι → ℝ) (i : Fin d) (k : ι) : K_over_K2 K i k * K2 K k = K i k := by
  unfold K_over_K2
  by_cases h : K2 K k = 0
  · rw [if_pos h, h, (K2_eq_zero K k).1 h i]; simp
  · rw [if_neg h]; field_simp

theorem KoK2_zero (K : Fin d → ι → ℝ) (k : ι) (h : ∀ i, K i k = 0) (i : Fin d) : K_over_K2 K i k = 0 := by
  simp [K_over_K2, h i]

/-- `sum_i K_i K_i/K2` is one, except at the mean mode. -/
theorem sum_K_KoK2 (K : Fin d → ι → ℝ) (k : ι) (h : K2 K k ≠ 0) : ∑ i, K i k * K_over_K2 K i k = 1 := by
  unfold K_over_K2
  simp only [if_neg h, ← mul_div_assoc, ← Finset.sum_div]
  exact div_self h

theorem dot_K_P (K : Fin d → ι → ℝ) (k : ι) (P : ℂ) :
    Spec.dot (Spec.at' K k) (fun i => P * K i k) = P * K2 K k := by
  simp only [Spec.dot, Spec.at', K2, ofReal_sum, ofReal_mul, Finset.mul_sum]
  exact Finset.sum_congr rfl fun i _ => by ring

theorem dot_add (k : Fin d → ℝ) (a b : Fin d → ℂ) : Spec.dot k (fun i => a i + b i) = Spec.dot k a + Spec.dot k b := by
  simp [Spec.dot, mul_add, Finset.sum_add_distrib]

theorem dot_sub (k : Fin d → ℝ) (a b : Fin d → ℂ) : Spec.dot k (fun i => a i - b i) = Spec.dot k a - Spec.dot k b := by
  simp [Spec.dot, mul_sub, Finset.sum_sub_distrib]

theorem dot_smul (k : Fin d → ℝ) (c : ℂ) (a : Fin d → ℂ) : Spec.dot k (fun i => c * a i) = c * Spec.dot k a := by
  simp only [Spec.dot, Finset.mul_sum]
  exact Finset.sum_congr rfl fun i _ => by ring

/-- The sum defining `P_hat` is the normalised divergence. -/
theorem sum_KoK2 (K : Fin d → ι → ℝ) (k : ι) (r : Fin d → ℂ) :
    (∑ i, r i * (K_over_K2 K i k : ℂ)) * K2 K k = Spec.dot (Spec.at' K k) r := by
  rw [Finset.sum_mul, Spec.dot]
  refine Finset.sum_congr rfl fun i _ => ?_
  have h := KoK2_mul K i k
  have h' : (K_over_K2 K i k : ℂ) * (K2 K k : ℂ) = (K i k : ℂ) := by rw [← ofReal_mul, h]
  simp only [Spec.at', ← h']
  ring

theorem cross1_3d_eq {R : Type*} [CommRing R] (c a b : Fin 3 → R) : cross1_3d c a b = Spec.cross a b := by
  funext i
  fin_cases i <;> simp [cross1_3d, Spec.cross]

theorem cross2_3d_eq (c : SArr 3 ι) (K : Fin 3 → ι → ℝ) (u : SArr 3 ι) : cross2_3d c K u = Spec.curl K u := by
  funext i k
  simp only [cross2_3d, cross1_3d_eq, Spec.curl, Spec.cross, Pi.sub_apply, Pi.mul_apply]
  ring

end SpectralDNS.Periodic

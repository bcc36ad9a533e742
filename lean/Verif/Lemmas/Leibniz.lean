import Verif.Spec.Invariants
import Verif.Props.Dealias

/-!
# The product rule on padded grids
-/

namespace SpectralDNS.Dealias

open Complex Spec Periodic

/-- On a grid without aliasing the derivative of a product of three fields has mean zero. -/
theorem field_leibniz {d : ℕ} (M : Fin d → ℕ) (hM : ∀ i, 0 < M i) (S : Finset (Fin d → ℤ)) (hS : ∀ p ∈ S, -p ∈ S) (hA : AliasFree M S) (j : Fin d)
    (a b c : (Fin d → ℤ) → ℂ) :
    ∑ x, (field M S (fun p => p j * a p) x * field M S b x * field M S c x + field M S a x * field M S (fun p => p j * b p) x * field M S c x
      + field M S a x * field M S b x * field M S (fun p => p j * c p) x) = 0 := by
  have h1 : ∀ x : Grid M, field M S (fun p => p j * a p) x * field M S b x * field M S c x + field M S a x * field M S (fun p => p j * b p) x * field M S c x
      + field M S a x * field M S b x * field M S (fun p => p j * c p) x =
      ∑ p ∈ S, ∑ q ∈ S, ∑ r ∈ S, ((p j + q j + r j : ℤ) : ℂ) * (a r * b q * c p) * wave M (p + q + r) x := fun x => by
    simp only [field, Finset.sum_mul_sum, Finset.sum_mul, Finset.mul_sum, ← Finset.sum_add_distrib]
    refine Finset.sum_congr rfl fun p _ => Finset.sum_congr rfl fun q _ => Finset.sum_congr rfl fun r _ => ?_
    rw [← wave_mul, ← wave_mul]
    push_cast
    ring
  rw [Finset.sum_congr rfl fun x _ => h1 x, Finset.sum_comm]
  refine Finset.sum_eq_zero fun p hp => ?_
  rw [Finset.sum_comm]
  refine Finset.sum_eq_zero fun q hq => ?_
  rw [Finset.sum_comm]
  refine Finset.sum_eq_zero fun r hr => ?_
  rw [← Finset.mul_sum]
  by_cases h : ∀ i, (M i : ℤ) ∣ p i + q i + r i
  · have := (aliasFree_iff M hM S).1 hA p hp q hq (-r) (hS r hr) fun i => by simpa using h i
    have h0 := congrFun this j
    simp only [Pi.add_apply, Pi.neg_apply] at h0
    rw [show p j + q j + r j = 0 by omega]
    simp
  · have : ∑ x : Grid M, wave M (p + q + r) x = 0 := by
      refine (grid_sum_exp M hM (p + q + r)).trans (if_neg ?_)
      simpa using h
    rw [this, mul_zero]

theorem extend_deriv {n : ℕ} (N : Fin (n + 1) → ℕ) (L : Fin (n + 1) → ℝ) (j : Fin (n + 1)) (a : RModes N → ℂ) (p : Fin (n + 1) → ℤ) :
    extend N (Spec.deriv (scaledWaves N L) j a) p = (I * (2 * Real.pi / L j : ℝ)) * (p j * extend N a p) := by
  have e1 : ∀ l, (if (fun i => waves N i l) = p then (rweight N l : ℂ) * Spec.deriv (scaledWaves N L) j a l else 0) =
      (I * (2 * Real.pi / L j : ℝ)) * p j * (if (fun i => waves N i l) = p then (rweight N l : ℂ) * a l else 0) := fun l => by
    split_ifs with h
    · rw [← h, Spec.deriv, scaledWaves]; push_cast; ring
    · simp
  have e2 : ∀ l, (if (fun i => -waves N i l) = p then (rweight N l : ℂ) * (starRingEnd ℂ) (Spec.deriv (scaledWaves N L) j a l) else 0) =
      (I * (2 * Real.pi / L j : ℝ)) * p j * (if (fun i => -waves N i l) = p then (rweight N l : ℂ) * (starRingEnd ℂ) (a l) else 0) := fun l => by
    split_ifs with h
    · rw [← h, Spec.deriv, scaledWaves]
      simp only [map_mul, conj_I, conj_ofReal]
      push_cast; ring
    · simp
  rw [extend, extend, Finset.sum_congr rfl fun l _ => e1 l, Finset.sum_congr rfl fun l _ => e2 l, ← Finset.mul_sum, ← Finset.mul_sum]
  ring

/-- The arrays without Nyquist modes. -/
def Unmasked {n : ℕ} (N : Fin (n + 1) → ℕ) (a : RModes N → ℂ) : Prop := ∀ k, nyquistMask N k = false → a k = 0

/-- The grids of the 3/2-rule satisfy the product rule, in boxes of any size. -/
theorem leibniz_padded {n : ℕ} (N : Fin (n + 1) → ℕ) (hN : ∀ i, 0 < N i) (L : Fin (n + 1) → ℝ) :
    Leibniz (rspace N fun i => padded (N i)).backward (scaledWaves N L) (Unmasked N) := by
  intro j a b c ha hb hc
  have hM : ∀ i, 0 < padded (N i) := fun i => by have := hN i; unfold padded; omega
  have hd : ∀ a, Unmasked N a → Unmasked N (Spec.deriv (scaledWaves N L) j a) := fun a h k hk => by rw [Spec.deriv, h k hk, mul_zero]
  have hf : ∀ (a : (Fin (n + 1) → ℤ) → ℂ) (x : Grid fun i => padded (N i)), field (fun i => padded (N i)) (unmasked N) (fun p => (I * (2 * Real.pi / L j : ℝ)) * a p) x =
      (I * (2 * Real.pi / L j : ℝ)) * field (fun i => padded (N i)) (unmasked N) a x := fun a x => by
    simp only [field, Finset.mul_sum]
    exact Finset.sum_congr rfl fun p _ => by ring
  have h := field_leibniz (fun i => padded (N i)) hM (unmasked N) (fun p hp => (mem_unmasked N _).2 fun i => by
    have := (mem_unmasked N p).1 hp i; simp only [Pi.neg_apply]; constructor <;> omega) (C55_three_halves N hN) j (extend N a) (extend N b) (extend N c)
  refine ofReal_injective ?_
  rw [ofReal_zero, ← mul_zero (I * (2 * Real.pi / L j : ℝ) : ℂ), ← h, Finset.mul_sum]
  push_cast
  refine Finset.sum_congr rfl fun x _ => ?_
  rw [backward_field N _ _ ha, backward_field N _ _ hb, backward_field N _ _ hc, backward_field N _ _ (hd a ha), backward_field N _ _ (hd b hb),
    backward_field N _ _ (hd c hc)]
  simp only [show extend N (Spec.deriv (scaledWaves N L) j a) = _ from _root_.funext (extend_deriv N L j a),
    show extend N (Spec.deriv (scaledWaves N L) j b) = _ from _root_.funext (extend_deriv N L j b),
    show extend N (Spec.deriv (scaledWaves N L) j c) = _ from _root_.funext (extend_deriv N L j c), hf]
  push_cast
  ring

end SpectralDNS.Dealias

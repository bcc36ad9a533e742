import Verif.Spec.ChannelPlanar
import Verif.Props.ChannelSymmetry

/-! # Fields on a channel which do not vary along the walls are those left in place by a displacement by one cell of the mesh -/

namespace SpectralDNS.Channel

open Polynomial Periodic Spec Spec.Field Set Torus

variable {N M : Fin 2 → ℕ} {L : Fin 2 → ℝ} {d : Fin 2}

/-- One cell of the mesh in the direction `d`. -/
noncomputable def cell (L : Fin 2 → ℝ) (M : Fin 2 → ℕ) (d : Fin 2) : Fin 2 → ℝ := fun i => if i = d then L i / M i else 0

theorem motion_cell (hN : ∀ i, 0 < N i) (hM : ∀ i, 0 < M i) (hL : ∀ i, L i ≠ 0) (d : Fin 2) : Motion N M L 1 (cell L M d) :=
  ⟨fun _ => rfl, fun _ => rfl, fun _ => rfl, hN, hM, hL, Or.inr ⟨fun i => if i = d then 1 else 0, fun i => by by_cases h : i = d <;> simp [cell, h]⟩⟩

theorem motion_zero (hN : ∀ i, 0 < N i) (hM : ∀ i, 0 < M i) (hL : ∀ i, L i ≠ 0) : Motion N M L 1 (0 : Fin 2 → ℝ) :=
  ⟨fun _ => rfl, fun _ => rfl, fun _ => rfl, hN, hM, hL, Or.inr ⟨0, fun i => by simp⟩⟩

/-- The reflection of the direction `d`. -/
def mirror (d : Fin 2) : Fin 2 → ℤˣ := fun i => if i = d then -1 else 1

theorem cell_of_along {f : Scalar} (hf : Along d f) : MovedBetween 1 1 (cell L M d) 1 f f := fun x hx y z => by
  have := hf x hx y z (L d / M d)
  fin_cases d <;> simpa [cell] using this.symm

theorem iterate_cell {f : Scalar} (hf : MovedBetween 1 1 (cell L M d) 1 f f) {x : ℝ} (hx : x ∈ Icc (-1 : ℝ) 1) (y z : ℝ) (j : ℕ) :
    f x (y + j * cell L M d 0) (z + j * cell L M d 1) = f x y z := by
  induction j with
  | zero => simp
  | succ j ih =>
    have := hf x hx (y + j * cell L M d 0) (z + j * cell L M d 1)
    simp only [Units.val_one, Int.cast_one, one_mul, Pi.one_apply] at this
    rw [← ih, this]
    congr 1 <;> push_cast <;> ring

/-- The waves which do not vary in the direction `d`. -/
theorem fieldOf_along (hM : 0 < M d) (hNM : N d ≤ M d) (hL : L d ≠ 0) (a : RModes N → ℂ[X]) (hf : MovedBetween 1 1 (cell L M d) 1 (fieldOf N L a) (fieldOf N L a))
    {x : ℝ} (hx : x ∈ Icc (-1 : ℝ) 1) (y z : ℝ) :
    fieldOf N L a x y z = fieldOf N L (fun k => if waves N d k = 0 then a k else 0) x y z := by
  have hM' : (M d : ℂ) ≠ 0 := by exact_mod_cast hM.ne'
  have hL' : (L d : ℂ) ≠ 0 := by exact_mod_cast hL
  have e1 : (M d : ℝ) * fieldOf N L a x y z = ∑ j : Fin (M d), fieldOf N L a x (y + (j : ℕ) * cell L M d 0) (z + (j : ℕ) * cell L M d 1) := by
    simp only [iterate_cell hf hx y z]; simp
  have e2 : ∀ k (j : ℕ), Complex.exp (Complex.I * (scaledWaves N L 0 k * (y + j * cell L M d 0 : ℝ) + scaledWaves N L 1 k * (z + j * cell L M d 1 : ℝ))) =
      Complex.exp (Complex.I * (scaledWaves N L 0 k * y + scaledWaves N L 1 k * z)) * Complex.exp (2 * Real.pi * Complex.I * (waves N d k * j / M d)) := fun k j => by
    rw [← Complex.exp_add]
    congr 1
    fin_cases d
    · have h1 : (M 0 : ℂ) ≠ 0 := hM'
      have h2 : (L 0 : ℂ) ≠ 0 := hL'
      simp only [cell, scaledWaves, Fin.zero_eta, Fin.isValue, if_true, one_ne_zero, if_false]
      push_cast
      have : (waves N 0 k : ℂ) * (2 * Real.pi / L 0) * (j * (L 0 / M 0)) = 2 * Real.pi * (waves N 0 k * j / M 0) := by field_simp
      linear_combination Complex.I * this
    · have h1 : (M 1 : ℂ) ≠ 0 := hM'
      have h2 : (L 1 : ℂ) ≠ 0 := hL'
      simp only [cell, scaledWaves, Fin.mk_one, Fin.isValue, if_true, zero_ne_one, if_false]
      push_cast
      have : (waves N 1 k : ℂ) * (2 * Real.pi / L 1) * (j * (L 1 / M 1)) = 2 * Real.pi * (waves N 1 k * j / M 1) := by field_simp
      linear_combination Complex.I * this
  have e3 : ∀ k, (M d : ℤ) ∣ waves N d k ↔ waves N d k = 0 := fun k => by
    obtain ⟨h1, h2⟩ := waves_bounds N k d
    refine ⟨fun ⟨c, hc⟩ => ?_, fun h => by simp [h]⟩
    rw [hc] at h1 h2 ⊢
    have : (N d : ℤ) ≤ M d := by exact_mod_cast hNM
    have hMz : (0 : ℤ) < M d := by exact_mod_cast hM
    have : c = 0 := by nlinarith [mul_pos hMz hMz, sq_nonneg c, show c < 1 by nlinarith, show -1 < c by nlinarith]
    simp [this]
  have e4 : ∑ j : Fin (M d), fieldOf N L a x (y + (j : ℕ) * cell L M d 0) (z + (j : ℕ) * cell L M d 1) =
      (M d : ℝ) * fieldOf N L (fun k => if waves N d k = 0 then a k else 0) x y z := by
    simp only [fieldOf, Field.field]
    rw [← Complex.re_sum, Finset.sum_comm, ← Complex.re_ofReal_mul]
    congr 1
    rw [Finset.mul_sum]
    refine Finset.sum_congr rfl fun k _ => ?_
    simp only [e2, ← mul_assoc]
    rw [← Finset.mul_sum, sum_exp (M d) hM (waves N d k)]
    by_cases hk : waves N d k = 0
    · simp [hk]; ring
    · rw [if_neg ((e3 k).not.2 hk), if_neg hk]; simp
  exact mul_left_cancel₀ (by exact_mod_cast hM.ne' : (M d : ℝ) ≠ 0) (e1.trans e4)

/-- A field of the solver which is left in place by a displacement by one cell does not vary at all in that direction. -/
theorem along_of_cell (hM : 0 < M d) (hNM : N d ≤ M d) (hL : L d ≠ 0) {a : RModes N → ℂ[X]} (hf : MovedBetween 1 1 (cell L M d) 1 (fieldOf N L a) (fieldOf N L a)) :
    Along d (fieldOf N L a) := fun x hx y z b => by
  rw [fieldOf_along hM hNM hL a hf hx, fieldOf_along hM hNM hL a hf hx]
  simp only [fieldOf, Field.field]
  congr 1
  refine Finset.sum_congr rfl fun k _ => ?_
  by_cases hk : waves N d k = 0
  · congr 2
    fin_cases d <;> simp [scaledWaves] at hk ⊢ <;> simp [hk]
  · simp [hk]

theorem along_iff (hM : 0 < M d) (hNM : N d ≤ M d) (hL : L d ≠ 0) {a : RModes N → ℂ[X]} :
    Along d (fieldOf N L a) ↔ MovedBetween 1 1 (cell L M d) 1 (fieldOf N L a) (fieldOf N L a) := ⟨cell_of_along, along_of_cell hM hNM hL⟩

theorem mirror_along {f : Scalar} (hf : Along d f) : MovedBetween 1 (mirror d) 0 1 f f := fun x hx y z => by
  fin_cases d
  · simpa [mirror] using hf x hx (-y) z (2 * y) |>.symm |> fun e => by
      have : -y + 2 * y = y := by ring
      simp [this] at e; exact e.symm
  · simpa [mirror] using hf x hx y (-z) (2 * z) |>.symm |> fun e => by
      have : -z + 2 * z = z := by ring
      simp [this] at e; exact e.symm

theorem mirror_odd {f : Scalar} (hf : Along d f) : MovedBetween 1 (mirror d) 0 (-1) f f ↔ Vanishes f := by
  refine forall_congr' fun x => forall_congr' fun hx => forall_congr' fun y => forall_congr' fun z => ?_
  have := mirror_along hf x hx y z
  simp only [Units.val_one, Int.cast_one, one_mul, Units.val_neg, Int.cast_neg] at this ⊢
  rw [← this]
  constructor <;> intro h <;> linarith

/-- The flow of the solver does not vary in the direction `d` iff a displacement by one cell leaves it in place. -/
theorem alongFlow_iff (hM : 0 < M d) (hNM : N d ≤ M d) (hL : L d ≠ 0) {a b c : RModes N → ℂ[X]} :
    AlongFlow d (fieldOf N L a) (fieldOf N L b) (fieldOf N L c) ↔
      MovedFlow 1 1 (cell L M d) (fieldOf N L a) (fieldOf N L b) (fieldOf N L c) (fieldOf N L a) (fieldOf N L b) (fieldOf N L c) :=
  and_congr (along_iff hM hNM hL) (and_congr (along_iff hM hNM hL) (along_iff hM hNM hL))

theorem planarFlow_iff {u v w : Scalar} (h : AlongFlow d u v w) : PlanarFlow d u v w ↔ MovedFlow 1 (mirror d) 0 u v w u v w := by
  have h1 := mirror_odd h.2.1
  have h2 := mirror_odd h.2.2
  have m1 := mirror_along h.1
  have m2 := mirror_along h.2.1
  have m3 := mirror_along h.2.2
  fin_cases d
  · exact ⟨fun H => ⟨m1, h1.2 H.2, m3⟩, fun H => ⟨h, h1.1 H.2.1⟩⟩
  · exact ⟨fun H => ⟨m1, m2, h2.2 H.2⟩, fun H => ⟨h, h2.1 H.2.2⟩⟩

end SpectralDNS.Channel

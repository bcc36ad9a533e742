import Verif.Lemmas.Slab
import Verif.Lemmas.SolverQuad
import Verif.Spec.ScriptFlow
import Verif.Spec.Convection
import Mathlib.Algebra.BigOperators.Fin
import Mathlib.Analysis.SpecialFunctions.Trigonometric.Basic

/-! The transforms of the script as sums over waves; their linearity and adjointness; the transform of its initial velocity. -/

namespace SpectralDNS.Short

open Complex Periodic Spec

variable {N : ℕ}

theorem rootW (k : Fin N) (x : ℕ) : root N (freq N k * x) = root N ((k : ℕ) * (x : ℕ) : ℤ) := by
  have hN : 0 < N := k.pos
  unfold freq
  split
  · rfl
  · rw [sub_mul, sub_eq_add_neg, root_add, ← mul_neg, root_mul_self N hN, mul_one]

theorem root_zero : root N 0 = 1 := by simp [root]

theorem rootW_neg (k : Fin N) (x : ℕ) : root N (-(freq N k * x)) = root N (-((k : ℕ) * (x : ℕ) : ℤ)) := by
  have h : ∀ n : ℤ, root N (-n) * root N n = 1 := fun n => by rw [← root_add]; simp [root_zero]
  have hne : ∀ n : ℤ, root N n ≠ 0 := fun n => by simp [root, Complex.exp_ne_zero]
  refine mul_right_cancel₀ (hne (freq N k * x)) ?_
  rw [h]
  rw [rootW, h]

theorem wave_eq_root (p : Fin 3 → ℤ) (x : Points N) :
    Script.wave N p x = root N (p 0 * (x.1 : ℕ)) * root N (p 1 * (x.2.1 : ℕ)) * root N (p 2 * (x.2.2 : ℕ)) := by
  rw [← root_add, ← root_add, Script.wave, root]
  congr 1
  simp only [Fin.sum_univ_three, Script.point, Matrix.cons_val_zero, Matrix.cons_val_one, Matrix.cons_val]
  push_cast
  ring

theorem wave_modes (k : Modes N) (x : Points N) : Script.wave N (waves N k) x =
    root N ((k.1 : ℕ) * (x.1 : ℕ) : ℤ) * root N ((k.2.1 : ℕ) * (x.2.1 : ℕ) : ℤ) * root N ((k.2.2 : ℕ) * (x.2.2 : ℕ) : ℤ) := by
  rw [wave_eq_root]
  simp only [waves, freqz, rootW]

theorem wave_modes_neg (k : Modes N) (x : Points N) : Script.wave N (-waves N k) x =
    root N (-((k.1 : ℕ) * (x.1 : ℕ) : ℤ)) * root N (-((k.2.1 : ℕ) * (x.2.1 : ℕ) : ℤ)) * root N (-((k.2.2 : ℕ) * (x.2.2 : ℕ) : ℤ)) := by
  rw [wave_eq_root]
  simp only [waves, freqz, Pi.neg_apply, neg_mul, rootW_neg]

theorem wave_neg (p : Fin 3 → ℤ) (x : Points N) : Script.wave N (-p) x = (starRingEnd ℂ) (Script.wave N p x) := by
  rw [Script.wave, Script.wave, ← Complex.exp_conj]
  congr 1
  simp only [map_mul, conj_I, map_sum, conj_ofReal, map_intCast, Pi.neg_apply, Int.cast_neg, neg_mul, Finset.sum_neg_distrib, mul_neg]

theorem serial_forward (f : Points N → ℝ) : (serial N).forward f = Script.coeffs N (waves N) f := by
  funext k
  show fft (fun x => rfft2 (fun y z => f (x, y, z)) k.2.1 k.2.2) k.1 = _
  unfold fft rfft2 fft rfft Script.coeffs
  simp only [Fintype.sum_prod_type, Finset.sum_mul]
  refine Finset.sum_congr rfl fun x _ => Finset.sum_congr rfl fun y _ => Finset.sum_congr rfl fun z _ => ?_
  rw [wave_modes_neg]
  ring

theorem mult_eq (k : Modes N) : Script.multiplicity N (waves N k) = if (k.2.2 : ℕ) = 0 ∨ 2 * (k.2.2 : ℕ) = N then 1 else 2 := by
  have h1 : (waves N k 2 = 0) ↔ (k.2.2 : ℕ) = 0 := by simp [waves, freqz]
  have h2 : (2 * waves N k 2 = (N : ℤ)) ↔ 2 * (k.2.2 : ℕ) = N := by simp only [waves, freqz]; omega
  unfold Script.multiplicity
  simp only [h1, h2]

theorem sum3 {A B C : Type*} [Fintype A] [Fintype B] [Fintype C] (f : A → B → C → ℝ) : ∑ a, ∑ b, ∑ c, f a b c = ∑ c, ∑ b, ∑ a, f a b c := by
  calc ∑ a, ∑ b, ∑ c, f a b c = ∑ a, ∑ c, ∑ b, f a b c := Finset.sum_congr rfl fun a _ => Finset.sum_comm
    _ = ∑ c, ∑ a, ∑ b, f a b c := Finset.sum_comm
    _ = _ := Finset.sum_congr rfl fun c _ => Finset.sum_comm

theorem serial_backward (c : Modes N → ℂ) : (serial N).backward c = Script.values N (waves N) c := by
  funext x
  show irfft2 (fun k1 k2 => ifft (fun k0 => c (k0, k1, k2)) x.1) x.2.1 x.2.2 = _
  unfold irfft2 irfft ifft Script.values
  have h : ∀ k2 : Fin (N / 2 + 1),
      (1 / (N : ℂ) * ∑ k1 : Fin N, (1 / (N : ℂ) * ∑ k0 : Fin N, c (k0, k1, k2) * root N ((k0 : ℕ) * (x.1 : ℕ) : ℤ)) * root N ((k1 : ℕ) * (x.2.1 : ℕ) : ℤ)) *
        root N ((k2 : ℕ) * (x.2.2 : ℕ) : ℤ) = ((1 / (N : ℝ) ^ 2 : ℝ) : ℂ) * ∑ k1 : Fin N, ∑ k0 : Fin N, c (k0, k1, k2) * Script.wave N (waves N (k0, k1, k2)) x := by
    intro k2
    simp only [wave_modes, Finset.mul_sum, Finset.sum_mul]
    refine Finset.sum_congr rfl fun k1 _ => Finset.sum_congr rfl fun k0 _ => ?_
    push_cast
    ring
  simp only [h]
  simp only [re_ofReal_mul, re_sum, Fintype.sum_prod_type, mult_eq, Finset.mul_sum]
  rw [sum3 (A := Fin N) (B := Fin N)]
  refine Finset.sum_congr rfl fun k2 _ => Finset.sum_congr rfl fun k1 _ => Finset.sum_congr rfl fun k0 _ => ?_
  ring

theorem serial_linear (N : ℕ) : LinearSpace (serial N) := by
  constructor
  · refine ⟨⟨⟨(serial N).forward, fun f g => ?_⟩, fun r f => ?_⟩, fun _ => rfl⟩
    · simp only [serial_forward]
      funext k
      simp only [Script.coeffs, Pi.add_apply, ofReal_add, add_mul, Finset.sum_add_distrib]
    · simp only [serial_forward]
      funext k
      simp only [Script.coeffs, Pi.smul_apply, smul_eq_mul, ofReal_mul, RingHom.id_apply, real_smul, Finset.mul_sum, mul_assoc]
  · refine ⟨⟨⟨(serial N).backward, fun f g => ?_⟩, fun r f => ?_⟩, fun _ => rfl⟩
    · simp only [serial_backward]
      funext x
      simp only [Script.values, Pi.add_apply, mul_add, add_mul, Finset.sum_add_distrib, add_re]
    · simp only [serial_backward]
      funext x
      simp only [Script.values, Pi.smul_apply, smul_eq_mul, RingHom.id_apply, real_smul]
      simp only [mul_assoc, re_ofReal_mul, Finset.mul_sum]
      exact Finset.sum_congr rfl fun k _ => by ring

theorem mult_pos (q : Fin 3 → ℤ) : 0 < Script.multiplicity N q := by
  unfold Script.multiplicity
  split <;> norm_num

theorem serial_adjoint (N : ℕ) (hN : 0 < N) :
    Adjoint (fun k => Script.multiplicity N (waves N k)) ((N : ℝ) ^ 3) (serial N).forward (serial N).backward := by
  intro a f
  rw [serial_forward, serial_backward]
  simp only [Script.coeffs, Script.values]
  have hN' : (N : ℝ) ≠ 0 := by exact_mod_cast hN.ne'
  have h : ∀ k x, ((starRingEnd ℂ) (a k) * ((f x : ℂ) * Script.wave N (-waves N k) x)).re = f x * (a k * Script.wave N (waves N k) x).re := by
    intro k x
    rw [wave_neg, mul_left_comm, re_ofReal_mul, ← map_mul, conj_re]
  simp only [Finset.mul_sum, re_sum, h, Finset.sum_mul]
  rw [Finset.sum_comm]
  refine Finset.sum_congr rfl fun x _ => Finset.sum_congr rfl fun k _ => ?_
  field_simp

/-! ## The Taylor-Green vortex -/

/-- Values of the cosine at the grid points of a direction. -/
noncomputable def cg (N : ℕ) (x : Fin N) : ℝ := Real.cos ((x : ℕ) * 2 * Real.pi / N)
/-- Values of the sine at the grid points of a direction. -/
noncomputable def sg (N : ℕ) (x : Fin N) : ℝ := Real.sin ((x : ℕ) * 2 * Real.pi / N)

theorem cg_eq (x : Fin N) : (cg N x : ℂ) = (root N (1 * (x : ℕ)) + root N (-1 * (x : ℕ))) / 2 := by
  rw [cg, ofReal_cos, Complex.cos, root, root]
  congr 3 <;> push_cast <;> ring

theorem sg_eq (x : Fin N) : (sg N x : ℂ) = (root N (-1 * (x : ℕ)) - root N (1 * (x : ℕ))) * I / 2 := by
  rw [sg, ofReal_sin, Complex.sin, root, root]
  congr 4 <;> push_cast <;> ring

theorem cg_sum (hN : 0 < N) (p : ℤ) : ∑ x : Fin N, (cg N x : ℂ) * root N (-p * (x : ℕ)) =
    ((if (N : ℤ) ∣ 1 - p then (N : ℂ) else 0) + if (N : ℤ) ∣ -1 - p then (N : ℂ) else 0) / 2 := by
  rw [← sum_root N hN, ← sum_root N hN, ← Finset.sum_add_distrib, Finset.sum_div]
  refine Finset.sum_congr rfl fun x _ => ?_
  rw [cg_eq, sub_eq_add_neg, sub_eq_add_neg, add_mul, add_mul, root_add, root_add]
  ring

theorem sg_sum (hN : 0 < N) (p : ℤ) : ∑ x : Fin N, (sg N x : ℂ) * root N (-p * (x : ℕ)) =
    ((if (N : ℤ) ∣ -1 - p then (N : ℂ) else 0) - if (N : ℤ) ∣ 1 - p then (N : ℂ) else 0) * I / 2 := by
  rw [← sum_root N hN, ← sum_root N hN, ← Finset.sum_sub_distrib, Finset.sum_mul, Finset.sum_div]
  refine Finset.sum_congr rfl fun x _ => ?_
  rw [sg_eq, sub_eq_add_neg (-1 : ℤ), sub_eq_add_neg (1 : ℤ), add_mul, add_mul, root_add, root_add]
  ring

theorem dvd_small (hN : 3 ≤ N) (a p : ℤ) (ha : a = 1 ∨ a = -1) (h1 : -(N : ℤ) ≤ 2 * p) (h2 : 2 * p ≤ N) : (N : ℤ) ∣ a - p ↔ p = a := by
  constructor
  · rintro ⟨q, hq⟩
    have : q = 0 := by
      by_contra h
      rcases lt_or_gt_of_ne h with h | h
      · have : (N : ℤ) * q ≤ -N := by nlinarith
        omega
      · have : (N : ℤ) ≤ N * q := by nlinarith
        omega
    rw [this, mul_zero] at hq
    omega
  · rintro rfl; simp

/-- The two sums for wavenumbers of the grid. -/
theorem grid_sums (hN : 3 ≤ N) (p : ℤ) (h1 : -(N : ℤ) ≤ 2 * p) (h2 : 2 * p ≤ N) :
    (p : ℂ) * ∑ x : Fin N, (sg N x : ℂ) * root N (-p * (x : ℕ)) = -I * ∑ x : Fin N, (cg N x : ℂ) * root N (-p * (x : ℕ)) ∧
    (|p| ≠ 1 → ∑ x : Fin N, (sg N x : ℂ) * root N (-p * (x : ℕ)) = 0 ∧ ∑ x : Fin N, (cg N x : ℂ) * root N (-p * (x : ℕ)) = 0) := by
  rw [cg_sum (by omega), sg_sum (by omega)]
  simp only [dvd_small hN 1 p (Or.inl rfl) h1 h2, dvd_small hN (-1) p (Or.inr rfl) h1 h2]
  constructor
  · by_cases e1 : p = 1
    · subst e1
      norm_num
      ring
    · by_cases e2 : p = -1
      · subst e2
        norm_num
        ring
      · simp [e1, e2]
  · intro h
    have e1 : p ≠ 1 := fun e => h (by simp [e])
    have e2 : p ≠ -1 := fun e => h (by simp [e])
    simp [e1, e2]

theorem coeffs_prod (p : Fin 3 → ℤ) (a b c : Fin N → ℝ) :
    Script.coeffs N (fun _ : Unit => p) (fun x => a x.1 * b x.2.1 * c x.2.2) () = (∑ x : Fin N, (a x : ℂ) * root N (-p 0 * (x : ℕ))) *
      (∑ x : Fin N, (b x : ℂ) * root N (-p 1 * (x : ℕ))) * ∑ x : Fin N, (c x : ℂ) * root N (-p 2 * (x : ℕ)) := by
  rw [mul_assoc, Finset.sum_mul_sum, Finset.sum_mul_sum]
  simp only [Script.coeffs, Fintype.sum_prod_type, wave_eq_root, Finset.mul_sum]
  refine Finset.sum_congr rfl fun x _ => Finset.sum_congr rfl fun y _ => Finset.sum_congr rfl fun z _ => ?_
  push_cast
  simp only [Pi.neg_apply]
  ring

theorem sum_sq (hN : 3 ≤ N) : ∑ x : Fin N, cg N x ^ 2 = N / 2 ∧ ∑ x : Fin N, sg N x ^ 2 = N / 2 := by
  have h0 : ∑ x : Fin N, Real.cos (2 * ((x : ℕ) * 2 * Real.pi / N)) = 0 := by
    have h := congrArg Complex.re (sum_root N (by omega) 2)
    rw [if_neg (by intro h; have := Int.le_of_dvd (by norm_num) h; omega), re_sum] at h
    rw [zero_re] at h
    rw [← h]
    refine Finset.sum_congr rfl fun x _ => ?_
    rw [root, show 2 * (Real.pi : ℂ) * I * (((2 * (x : ℕ) : ℤ) : ℂ) / (N : ℂ)) = ((2 * ((x : ℕ) * 2 * Real.pi / N) : ℝ) : ℂ) * I by push_cast; ring,
      Complex.exp_ofReal_mul_I_re]
  have h1 : ∀ x : Fin N, cg N x ^ 2 = 1 / 2 + Real.cos (2 * ((x : ℕ) * 2 * Real.pi / N)) / 2 := fun x => Real.cos_sq _
  have h2 : ∀ x : Fin N, sg N x ^ 2 = 1 / 2 - Real.cos (2 * ((x : ℕ) * 2 * Real.pi / N)) / 2 := fun x => Real.sin_sq_eq_half_sub _
  simp only [h1, h2, Finset.sum_add_distrib, Finset.sum_sub_distrib, ← Finset.sum_div, h0]
  simp [div_eq_mul_inv]

end SpectralDNS.Short

import Verif.Model.DemoStarts
import Verif.Props.Bq
import Verif.Props.VV
import Verif.Props.SymmetryFFT

/-!
# Lemmas for C89
-/

namespace SpectralDNS.Periodic

open Complex

variable {n : ℕ} {N : Fin (n + 1) → ℕ}

theorem exp_int_cycle (m : ℕ) (hm : 0 < m) (w : ℤ) (a b : ℕ) (h : a % m = b % m) :
    exp (2 * Real.pi * I * ((w : ℂ) * (a : ℂ) / (m : ℂ))) = exp (2 * Real.pi * I * ((w : ℂ) * (b : ℂ) / (m : ℂ))) := by
  rw [Complex.exp_eq_exp_iff_exists_int]
  have hm' : (m : ℂ) ≠ 0 := by exact_mod_cast hm.ne'
  have ha : (a : ℂ) = (a % m : ℕ) + (m : ℂ) * (a / m : ℕ) := by exact_mod_cast (Nat.mod_add_div a m).symm
  have hb : (b : ℂ) = (a % m : ℕ) + (m : ℂ) * (b / m : ℕ) := by rw [h]; exact_mod_cast (Nat.mod_add_div b m).symm
  refine ⟨w * (((a / m : ℕ) : ℤ) - ((b / m : ℕ) : ℤ)), ?_⟩
  rw [ha, hb, Int.cast_mul, Int.cast_sub, Int.cast_natCast, Int.cast_natCast]
  field_simp
  ring

/-- The transform of an array which does not change along axis `i` has only modes with wavenumber zero along it. -/
theorem forward_const_axis (hN : ∀ i, 0 < N i) (i : Fin (n + 1)) (f : Grid N → ℝ) (hf : ∀ p a, f (Function.update p i a) = f p)
    (k : RModes N) (hk : waves N i k ≠ 0) : (rspace N N).forward f k = 0 := by
  classical
  have : NeZero (N i) := ⟨(hN i).ne'⟩
  let σ : Grid N ≃ Grid N :=
    { toFun := fun p => Function.update p i (p i + 1)
      invFun := fun p => Function.update p i (p i - 1)
      left_inv := fun p => by simp
      right_inv := fun p => by simp }
  set ω : ℂ := exp (2 * Real.pi * I * (((-waves N i k : ℤ) : ℂ) * ((1 : ℕ) : ℂ) / (N i : ℂ))) with hω
  have h1 : ω ≠ 1 := by
    intro h
    rw [hω, Complex.exp_eq_one_iff] at h
    obtain ⟨q, hq⟩ := h
    have hNi : (N i : ℂ) ≠ 0 := by exact_mod_cast (hN i).ne'
    have h2 : (2 * Real.pi * I : ℂ) ≠ 0 := by simp [Real.pi_ne_zero]
    have h3 : ((-waves N i k : ℤ) : ℂ) * ((1 : ℕ) : ℂ) / (N i : ℂ) = (q : ℂ) := by
      apply mul_left_cancel₀ h2; rw [hq]; ring
    rw [div_eq_iff hNi] at h3
    have h4 : -waves N i k = q * N i := by push_cast at h3; rw [mul_one] at h3; exact_mod_cast h3
    obtain ⟨b1, b2⟩ := waves_bounds N k i
    refine hk (Int.eq_zero_of_abs_lt_dvd (m := N i) ⟨-q, by linarith⟩ ?_)
    rw [abs_lt]
    have := hN i
    constructor <;> omega
  set F : Grid N → ℂ := fun p => (f p : ℂ) * (starRingEnd ℂ) (kernel (waves N) N k p) with hF
  have hs : ∀ p, F (σ p) = ω * F p := fun p => by
    have e1 : f (σ p) = f p := hf p _
    simp only [hF, e1, conj_kernel]
    rw [mul_left_comm]
    congr 1
    rw [hω, ← Complex.exp_add, ← mul_add, ← Finset.add_sum_erase _ _ (Finset.mem_univ i),
      ← Finset.add_sum_erase Finset.univ (fun j => ((-waves N j k : ℤ) : ℂ) * ((p j : ℕ) : ℂ) / (N j : ℂ)) (Finset.mem_univ i), ← add_assoc, mul_add, mul_add (2 * Real.pi * I),
      Complex.exp_add, Complex.exp_add]
    have e2 : ∑ j ∈ Finset.univ.erase i, ((-waves N j k : ℤ) : ℂ) * ((σ p j : ℕ) : ℂ) / (N j : ℂ) =
        ∑ j ∈ Finset.univ.erase i, ((-waves N j k : ℤ) : ℂ) * ((p j : ℕ) : ℂ) / (N j : ℂ) :=
      Finset.sum_congr rfl fun j hj => by
        have : σ p j = p j := Function.update_of_ne (Finset.ne_of_mem_erase hj) _ _
        rw [this]
    rw [e2]
    congr 1
    have e3 : σ p i = p i + 1 := Function.update_self _ _ _
    rw [e3, ← add_div, ← mul_add, ← Nat.cast_add]
    refine exp_int_cycle (N i) (hN i) _ _ _ ?_
    rw [Fin.val_add]
    simp [Nat.add_comm]
  have hS : ∑ p, F p = ω * ∑ p, F p := by
    rw [Finset.mul_sum]
    calc ∑ p, F p = ∑ p, F (σ p) := (σ.sum_comp F).symm
      _ = _ := Finset.sum_congr rfl fun p _ => hs p
  have hz : ∑ p, F p = 0 := by
    by_contra h0
    exact h1 (mul_right_cancel₀ h0 (by rw [one_mul]; exact hS.symm))
  simp only [rspace, dft]
  rw [show (∑ x, (f x : ℂ) * (starRingEnd ℂ) (kernel (waves N) N k x)) = 0 from hz, mul_zero]

/-- The component along an axis of an array which does not change along it carries no divergence. -/
theorem forward_const_mul (hN : ∀ i, 0 < N i) (L : Fin (n + 1) → ℝ) (i : Fin (n + 1)) (f : Grid N → ℝ)
    (hf : ∀ p a, f (Function.update p i a) = f p) (k : RModes N) : (scaledWaves N L i k : ℂ) * (rspace N N).forward f k = 0 := by
  by_cases hk : waves N i k = 0
  · simp [scaledWaves, hk]
  · rw [forward_const_axis hN i f hf k hk, mul_zero]

/-- Transforming back and forth, at a mode the mask keeps: nothing is lost. -/
theorem forward_backward_kept (hN : ∀ i, 0 < N i) (b : RModes N → ℂ)
    (hherm : ∀ k k', nyquistMask N k = true → (∀ i, waves N i k' = -waves N i k) → b k' = (starRingEnd ℂ) (b k)) (k : RModes N) (hk : nyquistMask N k = true) :
    (rspace N N).forward ((rspace N N).backward b) k = b k := by
  classical
  have hk' := of_decide_eq_true hk
  let b' : RModes N → ℂ := fun l => if nyquistMask N l then b l else 0
  have h1 : (rspace N N).forward ((rspace N N).backward b') k = b' k := by
    refine congrFun (rspace_inverse N N hN (fun i => le_rfl) b' (fun l hl => by simp [b', hl]) fun l l' hl => ?_) k
    have hm : nyquistMask N l' = nyquistMask N l := by
      simp only [nyquistMask, hl]
      congr 1
      apply propext
      refine forall_congr' fun i => ?_
      constructor <;> rintro ⟨h1, h2⟩ <;> constructor <;> intro h <;> first | (apply h1; linarith) | (apply h2; linarith)
    simp only [b', hm]
    by_cases hml : nyquistMask N l = true
    · rw [if_pos hml, if_pos hml, hherm l l' hml hl]
    · rw [if_neg hml, if_neg hml, map_zero]
  have h2 : b' k = b k := by simp [b', hk]
  rw [← h2, ← h1]
  simp only [rspace]
  rw [forward_backward _ _ _ hN, forward_backward _ _ _ hN]
  have key : ∀ l : RModes N, nyquistMask N l = false → (¬ ∀ i, (N i : ℤ) ∣ waves N i l - waves N i k) ∧ ¬ ∀ i, (N i : ℤ) ∣ -waves N i l - waves N i k := by
    intro l hl
    have hl' := of_decide_eq_false hl
    push Not at hl'
    obtain ⟨i, hi⟩ := hl'
    obtain ⟨a1, a2⟩ := waves_bounds N l i
    obtain ⟨c1, c2⟩ := waves_bounds N k i
    obtain ⟨n1, n2⟩ := hk' i
    have hpos := hN i
    constructor <;> intro hd
    · have := Int.eq_zero_of_abs_lt_dvd (hd i) (by rw [abs_lt]; constructor <;> omega)
      by_cases hh : 2 * waves N i l = N i
      · exact n1 (by omega)
      · exact n2 (by have := hi hh; omega)
    · have := Int.eq_zero_of_abs_lt_dvd (hd i) (by rw [abs_lt]; constructor <;> omega)
      by_cases hh : 2 * waves N i l = N i
      · exact n2 (by omega)
      · exact n1 (by have := hi hh; omega)
  congr 2 <;> refine Finset.sum_congr rfl fun l _ => ?_ <;> by_cases hl : nyquistMask N l = true
  · simp [b', hl]
  · rw [if_neg (key l (by simpa using hl)).1, if_neg (key l (by simpa using hl)).1]
  · simp [b', hl]
  · rw [if_neg (key l (by simpa using hl)).2, if_neg (key l (by simpa using hl)).2]

theorem forward_delta (hN : ∀ i, 0 < N i) (k : RModes N) :
    (rspace N N).forward (fun x => if ∀ i, (x i : ℕ) = 0 then 1 else 0) k = 1 / (Fintype.card (Grid N) : ℂ) := by
  classical
  simp only [rspace, dft]
  rw [Finset.sum_eq_single (fun i => (⟨0, hN i⟩ : Fin (N i)))]
  · simp [kernel]
  · intro x _ hx
    rw [if_neg]
    · simp
    · intro h
      exact hx (_root_.funext fun i => Fin.ext (h i))
  · intro h; exact absurd (Finset.mem_univ _) h

end SpectralDNS.Periodic

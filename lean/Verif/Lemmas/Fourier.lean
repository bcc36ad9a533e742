import Verif.Lemmas.Convection
import Verif.Props.Reality
import Mathlib.Algebra.Field.GeomSum
import Mathlib.Algebra.BigOperators.Ring.Finset
import Mathlib.Analysis.SpecialFunctions.Complex.Log

/-! The discrete Fourier transforms of `Model/Fourier.lean`: orthogonality and inversion. -/

namespace SpectralDNS.Periodic

open Complex

theorem sum_exp (M : ℕ) (hM : 0 < M) (n : ℤ) :
    ∑ x : Fin M, Complex.exp (2 * Real.pi * I * (n * (x : ℕ) / M)) = if (M : ℤ) ∣ n then (M : ℂ) else 0 := by
  have hM' : (M : ℂ) ≠ 0 := by exact_mod_cast hM.ne'
  set z := Complex.exp (2 * Real.pi * I * (n / M)) with hz
  have h1 : ∀ x : ℕ, Complex.exp (2 * Real.pi * I * (n * x / M)) = z ^ x := by
    intro x
    rw [hz, ← Complex.exp_nat_mul]
    congr 1
    ring
  have h2 : ∑ x : Fin M, Complex.exp (2 * Real.pi * I * (n * (x : ℕ) / M)) = ∑ x ∈ Finset.range M, z ^ x := by
    rw [← Fin.sum_univ_eq_sum_range (fun x => z ^ x) M]
    exact Finset.sum_congr rfl fun x _ => h1 x
  rw [h2]
  have hpi : (2 * Real.pi * I : ℂ) ≠ 0 := by simp [Real.pi_ne_zero]
  by_cases hd : (M : ℤ) ∣ n
  · obtain ⟨q, rfl⟩ := hd
    have hz1 : z = 1 := by
      rw [hz, Complex.exp_eq_one_iff]
      refine ⟨q, ?_⟩
      push_cast
      field_simp
    simp [hz1]
  · rw [if_neg hd]
    have hz1 : z ≠ 1 := by
      intro h
      rw [hz, Complex.exp_eq_one_iff] at h
      obtain ⟨q, hq⟩ := h
      apply hd
      refine ⟨q, ?_⟩
      have : (n : ℂ) / M = q := mul_left_cancel₀ hpi (by rw [hq]; ring)
      rw [div_eq_iff hM'] at this
      have h3 : ((n : ℤ) : ℂ) = (((M : ℤ) * q : ℤ) : ℂ) := by push_cast; rw [this]; ring
      exact_mod_cast h3
    have hzM : z ^ M = 1 := by
      rw [hz, ← Complex.exp_nat_mul, Complex.exp_eq_one_iff]
      refine ⟨n, ?_⟩
      field_simp
    rw [geom_sum_eq hz1, hzM, sub_self, zero_div]

variable {d : ℕ}

open Classical in
theorem grid_sum_exp (M : Fin d → ℕ) (hM : ∀ i, 0 < M i) (n : Fin d → ℤ) :
    ∑ x : Grid M, Complex.exp (2 * Real.pi * I * ∑ i, (n i : ℂ) * ((x i : ℕ) : ℂ) / (M i : ℂ)) =
      if ∀ i, (M i : ℤ) ∣ n i then (Fintype.card (Grid M) : ℂ) else 0 := by
  have h1 : ∀ x : Grid M, Complex.exp (2 * Real.pi * I * ∑ i, (n i : ℂ) * ((x i : ℕ) : ℂ) / (M i : ℂ)) =
      ∏ i, Complex.exp (2 * Real.pi * I * (n i * (x i : ℕ) / M i)) := by
    intro x
    rw [Finset.mul_sum, Complex.exp_sum]
  rw [Finset.sum_congr rfl fun x _ => h1 x]
  have h2 := Finset.prod_univ_sum (fun i => (Finset.univ : Finset (Fin (M i))))
    (fun i (x : Fin (M i)) => Complex.exp (2 * Real.pi * I * (n i * (x : ℕ) / M i)))
  rw [Fintype.piFinset_univ] at h2
  rw [← h2, Finset.prod_congr rfl fun i _ => sum_exp (M i) (hM i) (n i)]
  by_cases h : ∀ i, (M i : ℤ) ∣ n i
  · rw [if_pos h, Finset.prod_congr rfl fun i _ => if_pos (h i), Fintype.card_pi]
    simp
  · rw [if_neg h]
    push Not at h
    obtain ⟨i, hi⟩ := h
    exact Finset.prod_eq_zero (Finset.mem_univ i) (if_neg hi)

variable {ι : Type*} [Fintype ι]

omit [Fintype ι] in
theorem conj_kernel (wv : Fin d → ι → ℤ) (M : Fin d → ℕ) (k : ι) (x : Grid M) :
    (starRingEnd ℂ) (kernel wv M k x) = Complex.exp (2 * Real.pi * I * ∑ i, ((-wv i k : ℤ) : ℂ) * ((x i : ℕ) : ℂ) / (M i : ℂ)) := by
  rw [kernel, ← Complex.exp_conj]
  congr 1
  simp only [map_mul, map_sum, map_div₀, conj_I, conj_ofReal, map_ofNat, map_intCast, map_natCast]
  rw [mul_neg, neg_mul, ← mul_neg, ← Finset.sum_neg_distrib]
  congr 1
  exact Finset.sum_congr rfl fun i _ => by push_cast; ring

omit [Fintype ι] in
open Classical in
/-- Orthogonality of the kernel. -/
theorem kernel_orth (wv : Fin d → ι → ℤ) (M : Fin d → ℕ) (hM : ∀ i, 0 < M i) (k l : ι) :
    ∑ x, kernel wv M l x * (starRingEnd ℂ) (kernel wv M k x) =
      if ∀ i, (M i : ℤ) ∣ wv i l - wv i k then (Fintype.card (Grid M) : ℂ) else 0 := by
  rw [← grid_sum_exp M hM]
  refine Finset.sum_congr rfl fun x _ => ?_
  rw [conj_kernel, kernel, ← Complex.exp_add, ← mul_add, ← Finset.sum_add_distrib]
  congr 2
  exact Finset.sum_congr rfl fun i _ => by push_cast; ring

omit [Fintype ι] in
open Classical in
theorem kernel_orth_conj (wv : Fin d → ι → ℤ) (M : Fin d → ℕ) (hM : ∀ i, 0 < M i) (k l : ι) :
    ∑ x, (starRingEnd ℂ) (kernel wv M l x) * (starRingEnd ℂ) (kernel wv M k x) =
      if ∀ i, (M i : ℤ) ∣ -wv i l - wv i k then (Fintype.card (Grid M) : ℂ) else 0 := by
  rw [← grid_sum_exp M hM]
  refine Finset.sum_congr rfl fun x _ => ?_
  rw [conj_kernel, conj_kernel, ← Complex.exp_add, ← mul_add, ← Finset.sum_add_distrib]
  congr 2
  exact Finset.sum_congr rfl fun i _ => by push_cast; ring

open Classical in
/-- The coefficients of the grid values of a field. -/
theorem forward_backward (wv : Fin d → ι → ℤ) (w : ι → ℝ) (M : Fin d → ℕ) (hM : ∀ i, 0 < M i) (b : ι → ℂ) (k : ι) :
    (dft (kernel wv M) w).forward ((dft (kernel wv M) w).backward b) k =
      (∑ l, (if ∀ i, (M i : ℤ) ∣ wv i l - wv i k then (w l : ℂ) * b l else 0) +
       ∑ l, (if ∀ i, (M i : ℤ) ∣ -wv i l - wv i k then (w l : ℂ) * (starRingEnd ℂ) (b l) else 0)) / 2 := by
  have hcard : (Fintype.card (Grid M) : ℂ) ≠ 0 := by
    have : ∀ i, Nonempty (Fin (M i)) := fun i => ⟨⟨0, hM i⟩⟩
    exact_mod_cast Fintype.card_ne_zero
  have h1 : ∀ x : Grid M, (((dft (kernel wv M) w).backward b x : ℝ) : ℂ) =
      (∑ l, (w l : ℂ) * b l * kernel wv M l x + ∑ l, (w l : ℂ) * (starRingEnd ℂ) (b l) * (starRingEnd ℂ) (kernel wv M l x)) / 2 := by
    intro x
    simp only [dft]
    rw [re_eq_add_conj, map_sum]
    simp only [map_mul, conj_ofReal]
  simp only [dft] at h1 ⊢
  rw [Finset.sum_congr rfl fun x _ => by rw [h1 x]]
  rw [div_mul_eq_mul_div, one_mul, div_eq_iff hcard]
  have h2 : ∀ x : Grid M, (∑ l, (w l : ℂ) * b l * kernel wv M l x +
      ∑ l, (w l : ℂ) * (starRingEnd ℂ) (b l) * (starRingEnd ℂ) (kernel wv M l x)) / 2 * (starRingEnd ℂ) (kernel wv M k x) =
      ∑ l, (((w l : ℂ) * b l) / 2 * (kernel wv M l x * (starRingEnd ℂ) (kernel wv M k x)) +
        ((w l : ℂ) * (starRingEnd ℂ) (b l)) / 2 * ((starRingEnd ℂ) (kernel wv M l x) * (starRingEnd ℂ) (kernel wv M k x))) := by
    intro x
    rw [← Finset.sum_add_distrib, div_mul_eq_mul_div, Finset.sum_mul, Finset.sum_div]
    exact Finset.sum_congr rfl fun l _ => by ring
  rw [Finset.sum_congr rfl fun x _ => h2 x, Finset.sum_comm]
  rw [← Finset.sum_add_distrib, div_mul_eq_mul_div, Finset.sum_mul, Finset.sum_div]
  refine Finset.sum_congr rfl fun l _ => ?_
  rw [Finset.sum_add_distrib, ← Finset.mul_sum, ← Finset.mul_sum, kernel_orth wv M hM, kernel_orth_conj wv M hM]
  split <;> split <;> ring

/-! ### The array of a real transform -/

variable {n : ℕ}

/-- The array stores at `k'` the mode `-k` of `k`, up to aliasing on the `N` grid. -/
def Opposite (N : Fin (n + 1) → ℕ) (k k' : RModes N) : Prop := ∀ i, (N i : ℤ) ∣ waves N i k + waves N i k'

theorem waves_bounds (N : Fin (n + 1) → ℕ) (k : RModes N) (i : Fin (n + 1)) :
    -(N i : ℤ) ≤ 2 * waves N i k ∧ 2 * waves N i k ≤ N i := by
  have hk := (k i).isLt
  unfold waves
  by_cases hi : i = Fin.last n
  · subst hi
    rw [if_pos rfl]
    simp only [rdim, if_true] at hk
    omega
  · rw [if_neg hi]
    simp only [rdim, if_neg hi] at hk
    split <;> omega

theorem waves_last_nonneg (N : Fin (n + 1) → ℕ) (k : RModes N) : 0 ≤ waves N (Fin.last n) k := by
  unfold waves
  rw [if_pos rfl]
  omega

theorem waves_inj (N : Fin (n + 1) → ℕ) (k l : RModes N) (h : ∀ i, waves N i k = waves N i l) : k = l := by
  funext i
  have hk := (k i).isLt
  have hl := (l i).isLt
  have := h i
  unfold waves at this
  by_cases hi : i = Fin.last n
  · rw [if_pos hi, if_pos hi] at this
    exact Fin.ext (by omega)
  · rw [if_neg hi, if_neg hi] at this
    simp only [rdim, if_neg hi] at hk hl
    refine Fin.ext ?_
    split at this <;> split at this <;> omega

theorem nyquistMask_iff (N : Fin (n + 1) → ℕ) (k : RModes N) :
    nyquistMask N k = true ↔ ∀ i, -(N i : ℤ) < 2 * waves N i k ∧ 2 * waves N i k < N i := by
  simp only [nyquistMask, decide_eq_true_eq]
  refine forall_congr' fun i => ?_
  have := waves_bounds N k i
  omega

/-- The index storing `-k`, for the modes having one. -/
theorem exists_neg (N : Fin (n + 1) → ℕ) (k : RModes N) (hm : nyquistMask N k = true) (h0 : waves N (Fin.last n) k = 0) :
    ∃ k' : RModes N, ∀ i, waves N i k' = -waves N i k := by
  rw [nyquistMask_iff] at hm
  have hex : ∀ i, ∃ j : Fin (rdim N i), ∀ k' : RModes N, k' i = j → waves N i k' = -waves N i k := by
    intro i
    by_cases hi : i = Fin.last n
    · subst hi
      refine ⟨k (Fin.last n), fun k' hk' => ?_⟩
      have h1 : waves N (Fin.last n) k' = waves N (Fin.last n) k := by
        unfold waves
        rw [if_pos rfl, if_pos rfl, hk']
      rw [h1, h0, neg_zero]
    · have hk := (k i).isLt
      have hd : rdim N i = N i := by simp [rdim, hi]
      have hb := hm i
      by_cases hz : (k i : ℕ) = 0
      · refine ⟨k i, fun k' hk' => ?_⟩
        unfold waves at hb ⊢
        rw [if_neg hi, if_neg hi, hk', hz]
        simp [show 0 < N i by omega]
      · refine ⟨⟨N i - (k i : ℕ), by omega⟩, fun k' hk' => ?_⟩
        have e : ((k' i : Fin (rdim N i)) : ℕ) = N i - (k i : ℕ) := by rw [hk']
        unfold waves at hb ⊢
        simp only [if_neg hi, e] at hb ⊢
        split at hb <;> split <;> omega
  choose f hf using hex
  exact ⟨f, fun i => hf i f rfl⟩

open Classical in
/-- Inversion: coefficients with Hermitian symmetry and no Nyquist modes are recovered from their values on any grid with at
least as many points. -/
theorem rspace_inverse (N M : Fin (n + 1) → ℕ) (hN : ∀ i, 0 < N i) (hNM : ∀ i, N i ≤ M i) (b : RModes N → ℂ)
    (hmask : ∀ k, nyquistMask N k = false → b k = 0)
    (hherm : ∀ k k', (∀ i, waves N i k' = -waves N i k) → b k' = (starRingEnd ℂ) (b k)) :
    (rspace N M).forward ((rspace N M).backward b) = b := by
  funext k
  rw [rspace, forward_backward _ _ _ fun i => (hN i).trans_le (hNM i)]
  have hne : ∀ l, b l ≠ 0 → ∀ i, -(N i : ℤ) < 2 * waves N i l ∧ 2 * waves N i l < N i := by
    intro l hl
    rw [← nyquistMask_iff]
    by_contra h
    exact hl (hmask l (by simpa using h))
  have hsmall : ∀ i (a : ℤ), (M i : ℤ) ∣ a → -(N i : ℤ) < a → a < N i → a = 0 := by
    intro i a hd h1 h2
    have := hNM i
    by_contra h
    rcases lt_or_gt_of_ne h with h | h
    · have := Int.le_of_dvd (by omega) ((Int.dvd_neg).2 hd)
      omega
    · have := Int.le_of_dvd h hd
      omega
  have hfirst : ∑ l, (if ∀ i, (M i : ℤ) ∣ waves N i l - waves N i k then (rweight N l : ℂ) * b l else 0) =
      (rweight N k : ℂ) * b k := by
    rw [Finset.sum_eq_single k]
    · simp
    · intro l _ hlk
      by_cases hb : b l = 0
      · simp [hb]
      · rw [if_neg]
        intro hd
        apply hlk
        refine waves_inj N l k fun i => ?_
        have h1 := hne l hb i
        have h2 := waves_bounds N k i
        have := hsmall i _ (hd i) (by omega) (by omega)
        omega
    · simp
  have hsecond : ∀ l, (∀ i, (M i : ℤ) ∣ -waves N i l - waves N i k) → b l ≠ 0 → ∀ i, waves N i l = -waves N i k := by
    intro l hd hb i
    have h1 := hne l hb i
    have h2 := waves_bounds N k i
    have := hsmall i _ (hd i) (by omega) (by omega)
    omega
  rw [hfirst]
  by_cases hbk : b k = 0
  · rw [Finset.sum_eq_zero, hbk]
    · simp
    · intro l _
      by_cases hb : b l = 0
      · simp [hb]
      · rw [if_neg]
        intro hd
        have h1 := hherm l k fun i => by rw [hsecond l hd hb i, neg_neg]
        rw [hbk] at h1
        exact hb (by simpa using h1.symm)
  · have hk := hne k hbk
    have hkm : nyquistMask N k = true := (nyquistMask_iff N k).2 hk
    have h0 := waves_last_nonneg N k
    by_cases hl : waves N (Fin.last n) k = 0
    · obtain ⟨k', hk'⟩ := exists_neg N k hkm hl
      have hw : rweight N k = 1 := by simp [rweight, hl]
      have hw' : rweight N k' = 1 := by simp [rweight, hk' (Fin.last n), hl]
      rw [Finset.sum_eq_single k']
      · rw [if_pos fun i => by rw [hk' i]; simp, hw, hw', hherm k k' hk']
        simp
      · intro l _ hlk
        by_cases hb : b l = 0
        · simp [hb]
        · rw [if_neg]
          intro hd
          exact hlk (waves_inj N l k' fun i => by rw [hsecond l hd hb i, hk' i])
      · simp
    · have hw : rweight N k = 2 := by
        rw [rweight, if_neg]
        have := (hk (Fin.last n)).2
        omega
      rw [Finset.sum_eq_zero, hw]
      · push_cast
        ring
      · intro l _
        by_cases hb : b l = 0
        · simp [hb]
        · rw [if_neg]
          intro hd
          have h1 := hsecond l hd hb (Fin.last n)
          have h2 := waves_last_nonneg N l
          omega

end SpectralDNS.Periodic

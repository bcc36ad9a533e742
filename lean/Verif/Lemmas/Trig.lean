import Verif.Lemmas.FourierInv

/-! Transforms of trigonometric polynomials. -/

namespace SpectralDNS.Periodic

open Complex

variable {d n : ℕ} {J : Type*} [Fintype J]

/-- `exp(i m.x)` on the grid for an integer vector `m`. -/
noncomputable def expz (M : Fin d → ℕ) (m : Fin d → ℤ) (x : Grid M) : ℂ :=
  Complex.exp (2 * Real.pi * I * ∑ i, (m i : ℂ) * ((x i : ℕ) : ℂ) / (M i : ℂ))

/-- The wavenumber vector of a stored mode. -/
def wvec (N : Fin (n + 1) → ℕ) (k : RModes N) : Fin (n + 1) → ℤ := fun i => waves N i k

theorem kernel_eq_expz (N : Fin (n + 1) → ℕ) (M : Fin (n + 1) → ℕ) (k : RModes N) (x : Grid M) :
    kernel (waves N) M k x = expz M (wvec N k) x := rfl

theorem expz_neg (M : Fin d → ℕ) (m : Fin d → ℤ) (x : Grid M) : expz M (-m) x = (starRingEnd ℂ) (expz M m x) :=
  (conj_kernel (fun i (_ : Unit) => m i) M () x).symm

/-- A trigonometric polynomial with modes `m j`. -/
noncomputable def trig (M : Fin d → ℕ) (m : J → Fin d → ℤ) (c : J → ℂ) (x : Grid M) : ℂ := ∑ j, c j * expz M (m j) x

open Classical in
/-- Its coefficients. -/
noncomputable def coeffs (N : Fin (n + 1) → ℕ) (m : J → Fin (n + 1) → ℤ) (c : J → ℂ) (k : RModes N) : ℂ :=
  ∑ j, if m j = wvec N k then c j else 0

open Classical in
theorem forward_trig_alias (N M : Fin (n + 1) → ℕ) (hM : ∀ i, 0 < M i) (m : J → Fin (n + 1) → ℤ) (c : J → ℂ)
    (f : Grid M → ℝ) (hf : ∀ x, (f x : ℂ) = trig M m c x) (k : RModes N) :
    (rspace N M).forward f k = ∑ j, if ∀ i, (M i : ℤ) ∣ m j i - waves N i k then c j else 0 := by
  have hcard : (Fintype.card (Grid M) : ℂ) ≠ 0 := by
    have : ∀ i, Nonempty (Fin (M i)) := fun i => ⟨⟨0, hM i⟩⟩
    exact_mod_cast Fintype.card_ne_zero
  simp only [rspace, dft, hf, trig, Finset.sum_mul]
  rw [Finset.sum_comm, div_mul_eq_mul_div, one_mul, div_eq_iff hcard, Finset.sum_mul]
  refine Finset.sum_congr rfl fun j _ => ?_
  have h := kernel_orth (fun i (b : Option Unit) => if b.isSome then m j i else waves N i k) M hM none (some ())
  simp only [Option.isSome_some, Option.isSome_none, if_true, Bool.false_eq_true, if_false] at h
  rw [ite_mul, zero_mul]
  calc ∑ x, c j * expz M (m j) x * (starRingEnd ℂ) (kernel (waves N) M k x)
      = c j * ∑ x, expz M (m j) x * (starRingEnd ℂ) (kernel (waves N) M k x) := by
        rw [Finset.mul_sum]; exact Finset.sum_congr rfl fun x _ => by ring
    _ = c j * (if ∀ i, (M i : ℤ) ∣ m j i - waves N i k then (Fintype.card (Grid M) : ℂ) else 0) := by rw [← h]; rfl
    _ = _ := by split <;> simp

/-- The forward transform gives the coefficients of every polynomial that fits the grid. -/
theorem forward_trig (N M : Fin (n + 1) → ℕ) (hNM : ∀ i, N i ≤ M i) (m : J → Fin (n + 1) → ℤ) (c : J → ℂ)
    (hm : ∀ j i, 2 * |m j i| < N i) (f : Grid M → ℝ) (hf : ∀ x, (f x : ℂ) = trig M m c x) (hN : ∀ i, 0 < N i) :
    (rspace N M).forward f = coeffs N m c := by
  funext k
  rw [forward_trig_alias N M (fun i => (hN i).trans_le (hNM i)) m c f hf, coeffs]
  refine Finset.sum_congr rfl fun j _ => ?_
  have h : (∀ i, (M i : ℤ) ∣ m j i - waves N i k) ↔ m j = wvec N k := by
    constructor
    · intro h
      funext i
      have h1 := waves_bounds N k i
      have h2 := hm j i
      have h3 := hNM i
      have h4 := abs_lt.1 (show |m j i| < (N i : ℤ) / 2 + 1 by omega)
      have h6 : |m j i - waves N i k| < M i := by
        have h5 := abs_le.1 (le_refl |m j i|)
        rw [abs_lt]
        constructor <;> omega
      have := Int.eq_zero_of_abs_lt_dvd (h i) h6
      exact sub_eq_zero.1 this
    · intro h i
      rw [h]
      simp [wvec]
  simp only [h]

/-- The number of modes of the whole spectrum which a mode of the half spectrum stands for, zero if it is not stored. -/
def halfWeight (m : Fin (n + 1) → ℤ) : ℝ := if m (Fin.last n) < 0 then 0 else if m (Fin.last n) = 0 then 1 else 2

omit [Fintype J] in
theorem halfWeight_add (m : Fin (n + 1) → ℤ) : halfWeight m + halfWeight (-m) = 2 := by
  unfold halfWeight
  simp only [Pi.neg_apply]
  rcases lt_trichotomy (m (Fin.last n)) 0 with h | h | h
  · rw [if_pos h, if_neg (by omega), if_neg (by omega)]; norm_num
  · simp only [h, neg_zero, lt_irrefl, if_true, if_false]; norm_num
  · rw [if_neg (by omega), if_neg (by omega), if_pos (by omega)]; norm_num

/-- Every mode of the half space that fits is stored. -/
theorem exists_trig_mode (N : Fin (n + 1) → ℕ) (m : Fin (n + 1) → ℤ) (hm : ∀ i, 2 * |m i| < N i) (hl : 0 ≤ m (Fin.last n)) :
    ∃ k : RModes N, wvec N k = m := by
  have hlt : ∀ i, (if 0 ≤ m i then (m i).toNat else (m i + N i).toNat) < rdim N i := by
    intro i
    have h := hm i
    unfold rdim
    by_cases hi : i = Fin.last n
    · subst hi
      rw [if_pos hl, if_pos rfl]
      rw [abs_of_nonneg hl] at h
      omega
    · rw [if_neg hi]
      split
      · rw [abs_of_nonneg (by assumption)] at h; omega
      · rw [abs_of_neg (by omega)] at h; omega
  refine ⟨fun i => ⟨_, hlt i⟩, ?_⟩
  funext i
  have h := hm i
  unfold wvec waves
  by_cases hi : i = Fin.last n
  · subst hi
    rw [if_pos rfl]
    simp only [if_pos hl]
    omega
  · rw [if_neg hi]
    by_cases h0 : 0 ≤ m i
    · simp only [if_pos h0]
      rw [abs_of_nonneg h0] at h
      rw [if_pos (by omega)]
      omega
    · simp only [if_neg h0]
      rw [abs_of_neg (by omega)] at h
      rw [if_neg (by omega)]
      omega

open Classical in
theorem sum_rweight (N : Fin (n + 1) → ℕ) (m : Fin (n + 1) → ℤ) (hm : ∀ i, 2 * |m i| < N i) (g : RModes N → ℂ) (z : ℂ)
    (hg : ∀ k, wvec N k = m → g k = z) :
    ∑ k, (if m = wvec N k then (rweight N k : ℂ) * g k else 0) = (halfWeight m : ℂ) * z := by
  by_cases hl : m (Fin.last n) < 0
  · rw [Finset.sum_eq_zero, halfWeight, if_pos hl]
    · simp
    · intro k _
      rw [if_neg]
      intro h
      have := waves_last_nonneg N k
      rw [h] at hl
      exact absurd hl (not_lt.2 this)
  · obtain ⟨k, hk⟩ := exists_trig_mode N m hm (not_lt.1 hl)
    rw [Finset.sum_eq_single k]
    · rw [if_pos hk.symm, hg k hk]
      congr 1
      have h1 : waves N (Fin.last n) k = m (Fin.last n) := congrFun hk _
      have h2 := hm (Fin.last n)
      rw [abs_of_nonneg (not_lt.1 hl)] at h2
      rw [rweight, halfWeight, if_neg hl, h1]
      by_cases h0 : m (Fin.last n) = 0
      · simp [h0]
      · rw [if_neg h0, if_neg]
        omega
    · intro l _ hlk
      rw [if_neg]
      intro h
      apply hlk
      exact waves_inj N l k fun i => by
        have h1 := congrFun h i
        have h2 := congrFun hk i
        simp only [wvec] at h1 h2
        rw [h2, ← h1]
    · simp

open Classical in
/-- The backward transform of the coefficients of a real polynomial gives its values, on every grid. -/
theorem backward_trig (N M : Fin (n + 1) → ℕ) (m : J → Fin (n + 1) → ℤ) (c : J → ℂ) (σ : J → J) (hσ : Function.Involutive σ)
    (hmσ : ∀ j, m (σ j) = -m j) (hcσ : ∀ j, c (σ j) = (starRingEnd ℂ) (c j)) (hm : ∀ j i, 2 * |m j i| < N i) (x : Grid M) :
    (((rspace N M).backward (coeffs N m c) x : ℝ) : ℂ) = trig M m c x := by
  have hconj : (starRingEnd ℂ) (trig M m c x) = trig M m c x := by
    simp only [trig, map_sum, map_mul]
    rw [← Equiv.sum_comp hσ.toPerm]
    refine Finset.sum_congr rfl fun j _ => ?_
    simp only [Function.Involutive.coe_toPerm, hmσ, hcσ, expz_neg, Complex.conj_conj]
  have hre : trig M m c x = (((trig M m c x).re : ℝ) : ℂ) := (Complex.conj_eq_iff_re.1 hconj).symm
  rw [hre]
  congr 1
  simp only [rspace, dft, coeffs]
  have h1 : ∑ k, (rweight N k : ℂ) * (∑ j, if m j = wvec N k then c j else 0) * kernel (waves N) M k x =
      ∑ j, (halfWeight (m j) : ℂ) * (c j * expz M (m j) x) := by
    have h2 : ∀ k, (rweight N k : ℂ) * (∑ j, if m j = wvec N k then c j else 0) * kernel (waves N) M k x =
        ∑ j, if m j = wvec N k then (rweight N k : ℂ) * (c j * kernel (waves N) M k x) else 0 := by
      intro k
      rw [Finset.mul_sum, Finset.sum_mul]
      refine Finset.sum_congr rfl fun j _ => ?_
      split <;> ring
    rw [Finset.sum_congr rfl fun k _ => h2 k, Finset.sum_comm]
    refine Finset.sum_congr rfl fun j _ => ?_
    exact sum_rweight N (m j) (hm j) _ _ fun k hk => by rw [kernel_eq_expz, hk]
  rw [h1, trig, Complex.re_sum, Complex.re_sum]
  simp only [Complex.re_ofReal_mul]
  have h3 : ∑ j, halfWeight (m j) * (c j * expz M (m j) x).re = ∑ j, halfWeight (-m j) * (c j * expz M (m j) x).re := by
    rw [← Equiv.sum_comp hσ.toPerm]
    refine Finset.sum_congr rfl fun j _ => ?_
    simp only [Function.Involutive.coe_toPerm, hmσ, hcσ, expz_neg, ← map_mul, Complex.conj_re]
  have h4 : ∑ j, halfWeight (m j) * (c j * expz M (m j) x).re + ∑ j, halfWeight (-m j) * (c j * expz M (m j) x).re =
      2 * ∑ j, (c j * expz M (m j) x).re := by
    rw [← Finset.sum_add_distrib, Finset.mul_sum]
    refine Finset.sum_congr rfl fun j _ => ?_
    rw [← add_mul, halfWeight_add]
  linarith

end SpectralDNS.Periodic

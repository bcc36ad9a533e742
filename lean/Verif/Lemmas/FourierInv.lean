import Verif.Lemmas.Fourier
import Verif.Lemmas.Slab

/-! The grid values of a real field are recovered from its half spectrum. -/

namespace SpectralDNS.Periodic

open Complex

/-- Sums over the whole period and over half of it, for symmetric terms. -/
theorem half_sum (N : ℕ) (hN : 0 < N) (g : ℕ → ℝ) (hg : ∀ k, k ≤ N → g (N - k) = g k) :
    ∑ k ∈ Finset.range (N / 2 + 1), (if k = 0 ∨ 2 * k = N then (1 : ℝ) else 2) * g k = ∑ k ∈ Finset.range N, g k := by
  rcases Nat.even_or_odd' N with ⟨m, rfl | rfl⟩
  · rw [show 2 * m / 2 = m by omega]
    exact Short.fold_sum m (by omega) g hg
  · rw [show (2 * m + 1) / 2 = m by omega, Finset.sum_range_succ', show 2 * m + 1 = m + 1 + m by ring, Finset.sum_range_add,
      Finset.sum_range_succ' (fun k => g k) m]
    have h1 : ∀ k ∈ Finset.range m, (if k + 1 = 0 ∨ 2 * (k + 1) = m + 1 + m then (1 : ℝ) else 2) * g (k + 1) = g (k + 1) + g (k + 1) := by
      intro k _
      rw [if_neg (by omega)]
      ring
    have h2 : ∑ k ∈ Finset.range m, g (m + 1 + k) = ∑ k ∈ Finset.range m, g (k + 1) := by
      rw [← Finset.sum_range_reflect]
      refine Finset.sum_congr rfl fun k hk => ?_
      have hk := Finset.mem_range.1 hk
      rw [← hg (k + 1) (by omega)]
      congr 1
      omega
    rw [Finset.sum_congr rfl h1, Finset.sum_add_distrib, h2]
    simp only [true_or, if_true, one_mul]
    ring

/-- One factor of the sum over the modes. -/
noncomputable def axisTerm {n : ℕ} (N : Fin (n + 1) → ℕ) (z : Fin (n + 1) → ℤ) (i : Fin (n + 1)) (j : ℕ) : ℂ :=
  (if i = Fin.last n then (if j = 0 ∨ 2 * j = N i then 1 else 2) else 1) * Short.root (N i) (z i * j)

theorem root_dvd (N : ℕ) (hN : 0 < N) (a b : ℤ) (h : (N : ℤ) ∣ a - b) : Short.root N a = Short.root N b := by
  obtain ⟨q, hq⟩ := h
  rw [show a = N * q + b by omega, Short.root_add, Short.root_mul_self N hN, one_mul]

theorem weight_kernel {n : ℕ} (N : Fin (n + 1) → ℕ) (hN : ∀ i, 0 < N i) (k : RModes N) (x y : Grid N) :
    (rweight N k : ℂ) * (kernel (waves N) N k x * (starRingEnd ℂ) (kernel (waves N) N k y)) =
      ∏ i, axisTerm N (fun i => ((x i : ℕ) : ℤ) - (y i : ℕ)) i (k i) := by
  have h1 : kernel (waves N) N k x * (starRingEnd ℂ) (kernel (waves N) N k y) =
      ∏ i, Short.root (N i) ((((x i : ℕ) : ℤ) - (y i : ℕ)) * (k i : ℕ)) := by
    rw [conj_kernel, kernel, ← Complex.exp_add, ← mul_add, ← Finset.sum_add_distrib, Finset.mul_sum, Complex.exp_sum]
    refine Finset.prod_congr rfl fun i _ => ?_
    have h2 : Complex.exp (2 * Real.pi * I * ((waves N i k : ℂ) * ((x i : ℕ) : ℂ) / (N i : ℂ) +
        ((-waves N i k : ℤ) : ℂ) * ((y i : ℕ) : ℂ) / (N i : ℂ))) = Short.root (N i) ((((x i : ℕ) : ℤ) - (y i : ℕ)) * waves N i k) := by
      unfold Short.root
      congr 1
      push_cast
      ring
    rw [h2]
    refine root_dvd _ (hN i) _ _ ?_
    rw [← mul_sub]
    refine Dvd.dvd.mul_left ?_ _
    unfold waves
    split
    · simp
    · split
      · simp
      · rw [sub_sub_cancel_left]; exact (dvd_refl _).neg_right
  rw [h1]
  unfold axisTerm
  rw [Finset.prod_mul_distrib, Finset.prod_ite_eq' Finset.univ (Fin.last n), if_pos (Finset.mem_univ _)]
  congr 1
  unfold rweight waves
  rw [if_pos rfl]
  have : (((k (Fin.last n) : ℕ) : ℤ) = 0 ∨ 2 * ((k (Fin.last n) : ℕ) : ℤ) = N (Fin.last n)) ↔
      ((k (Fin.last n) : ℕ) = 0 ∨ 2 * (k (Fin.last n) : ℕ) = N (Fin.last n)) := by omega
  simp only [this]
  split <;> simp

/-- The kernel summed over the stored modes, each counted as often as it stands for, is a multiple of the identity. -/
theorem sum_weight_kernel {n : ℕ} (N : Fin (n + 1) → ℕ) (hN : ∀ i, 0 < N i) (x y : Grid N) :
    (∑ k, (rweight N k : ℂ) * (kernel (waves N) N k x * (starRingEnd ℂ) (kernel (waves N) N k y))).re =
      if x = y then (Fintype.card (Grid N) : ℝ) else 0 := by
  rw [Finset.sum_congr rfl fun k _ => weight_kernel N hN k x y]
  set z : Fin (n + 1) → ℤ := fun i => ((x i : ℕ) : ℤ) - (y i : ℕ) with hz
  have h2 := Finset.prod_univ_sum (fun i => (Finset.univ : Finset (Fin (rdim N i)))) (fun i (j : Fin (rdim N i)) => axisTerm N z i j)
  rw [Fintype.piFinset_univ] at h2
  rw [← h2, ← Finset.mul_prod_erase _ _ (Finset.mem_univ (Fin.last n))]
  have hother : ∀ i ∈ Finset.univ.erase (Fin.last n), ∑ j : Fin (rdim N i), axisTerm N z i j =
      ((if x i = y i then (N i : ℝ) else 0 : ℝ) : ℂ) := by
    intro i hi
    have hi : i ≠ Fin.last n := Finset.ne_of_mem_erase hi
    rw [Fin.sum_univ_eq_sum_range (fun j => axisTerm N z i j) (rdim N i), rdim, if_neg hi,
      ← Fin.sum_univ_eq_sum_range (fun j => axisTerm N z i j) (N i)]
    simp only [axisTerm, if_neg hi, one_mul]
    rw [Short.sum_root _ (hN i)]
    simp only [hz, Short.dvd_sub_iff]
    split <;> simp
  have hlast : (∑ j : Fin (rdim N (Fin.last n)), axisTerm N z (Fin.last n) j).re =
      if x (Fin.last n) = y (Fin.last n) then (N (Fin.last n) : ℝ) else 0 := by
    set m := Fin.last n
    have hm := hN m
    rw [Fin.sum_univ_eq_sum_range (fun j => axisTerm N z m j) (rdim N m), rdim, if_pos rfl, Complex.re_sum]
    have h3 : ∀ j ∈ Finset.range (N m / 2 + 1), (axisTerm N z m j).re =
        (if j = 0 ∨ 2 * j = N m then (1 : ℝ) else 2) * (Short.root (N m) (z m * j)).re := by
      intro j _
      simp only [axisTerm, if_pos (show m = Fin.last n from rfl)]
      split <;> simp
    rw [Finset.sum_congr rfl h3, half_sum (N m) hm (fun j => (Short.root (N m) (z m * j)).re)]
    · have h := congrArg Complex.re (Short.sum_root (N m) hm (z m))
      rw [Complex.re_sum, Fin.sum_univ_eq_sum_range (fun k => (Short.root (N m) (z m * (k : ℕ))).re) (N m)] at h
      rw [h]
      simp only [hz, Short.dvd_sub_iff]
      split <;> simp
    · intro k hk
      rw [← Short.root_neg_re]
      refine congrArg Complex.re (root_dvd _ hm _ _ ⟨-z m, ?_⟩)
      push_cast [Nat.cast_sub hk]
      ring
  rw [Finset.prod_congr rfl hother, ← Complex.ofReal_prod, Complex.re_mul_ofReal, hlast,
    Finset.mul_prod_erase Finset.univ (fun i => if x i = y i then (N i : ℝ) else 0) (Finset.mem_univ (Fin.last n))]
  by_cases h : x = y
  · subst h
    simp [Fintype.card_pi]
  · rw [if_neg h]
    obtain ⟨i, hi⟩ := Function.ne_iff.1 h
    exact Finset.prod_eq_zero (Finset.mem_univ i) (if_neg hi)

/-- Every real grid field is recovered from its coefficients. -/
theorem backward_forward {n : ℕ} (N : Fin (n + 1) → ℕ) (hN : ∀ i, 0 < N i) (f : Grid N → ℝ) :
    (rspace N N).backward ((rspace N N).forward f) = f := by
  have hcard : (Fintype.card (Grid N) : ℝ) ≠ 0 := by
    have : ∀ i, Nonempty (Fin (N i)) := fun i => ⟨⟨0, hN i⟩⟩
    exact_mod_cast Fintype.card_ne_zero
  funext x
  simp only [rspace, dft]
  have h1 : ∀ k, (rweight N k : ℂ) * ((1 / (Fintype.card (Grid N) : ℂ)) * ∑ y, (f y : ℂ) * (starRingEnd ℂ) (kernel (waves N) N k y)) *
      kernel (waves N) N k x = ∑ y, ((f y / Fintype.card (Grid N) : ℝ) : ℂ) *
        ((rweight N k : ℂ) * (kernel (waves N) N k x * (starRingEnd ℂ) (kernel (waves N) N k y))) := by
    intro k
    rw [Finset.mul_sum, Finset.mul_sum, Finset.sum_mul]
    refine Finset.sum_congr rfl fun y _ => ?_
    push_cast
    ring
  rw [Finset.sum_congr rfl fun k _ => h1 k, Finset.sum_comm]
  simp only [← Finset.mul_sum]
  rw [Complex.re_sum]
  simp only [Complex.re_ofReal_mul, sum_weight_kernel N hN]
  rw [Finset.sum_eq_single x]
  · rw [if_pos rfl, div_mul_cancel₀ _ hcard]
  · intro y _ hy
    rw [if_neg (Ne.symm hy), mul_zero]
  · simp

end SpectralDNS.Periodic

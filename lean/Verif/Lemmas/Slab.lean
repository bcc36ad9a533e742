import Verif.Model.Short
import Verif.Lemmas.Fourier

/-! Lemmas on the one-dimensional transforms of `Model/Short.lean`. -/

namespace SpectralDNS.Short

open Complex Periodic

theorem root_add (N : ℕ) (a b : ℤ) : root N (a + b) = root N a * root N b := by
  rw [root, root, root, ← Complex.exp_add]
  congr 1
  push_cast
  ring

theorem sum_root (N : ℕ) (hN : 0 < N) (n : ℤ) : ∑ x : Fin N, root N (n * (x : ℕ)) = if (N : ℤ) ∣ n then (N : ℂ) else 0 := by
  rw [← sum_exp N hN n]
  refine Finset.sum_congr rfl fun x _ => ?_
  rw [root]
  congr 2
  push_cast
  ring

theorem dvd_sub_iff {N : ℕ} (x y : Fin N) : (N : ℤ) ∣ ((x : ℕ) : ℤ) - (y : ℕ) ↔ x = y := by
  constructor
  · rintro ⟨q, hq⟩
    have hx := x.isLt
    have hy := y.isLt
    have : q = 0 := by
      by_contra h
      rcases lt_or_gt_of_ne h with h | h
      · have : (N : ℤ) * q ≤ -N := by nlinarith
        omega
      · have : (N : ℤ) ≤ N * q := by nlinarith
        omega
    rw [this, mul_zero] at hq
    ext
    omega
  · rintro rfl; simp

theorem ifft_fft {N : ℕ} (f : Fin N → ℂ) : ifft (fft f) = f := by
  funext x
  have hN : 0 < N := x.pos
  have hN' : (N : ℂ) ≠ 0 := by exact_mod_cast hN.ne'
  unfold ifft fft
  have h1 : ∀ k : Fin N, (∑ y, f y * root N (-((k : ℕ) * (y : ℕ) : ℤ))) * root N ((k : ℕ) * (x : ℕ) : ℤ) =
      ∑ y, f y * root N ((((x : ℕ) : ℤ) - (y : ℕ)) * (k : ℕ)) := by
    intro k
    rw [Finset.sum_mul]
    refine Finset.sum_congr rfl fun y _ => ?_
    rw [mul_assoc, ← root_add]
    congr 2
    ring
  rw [Finset.sum_congr rfl fun k _ => h1 k, Finset.sum_comm]
  simp only [← Finset.mul_sum, sum_root N hN, dvd_sub_iff]
  simp
  field_simp

theorem fft_ifft {N : ℕ} (g : Fin N → ℂ) : fft (ifft g) = g := by
  funext k
  have hN : 0 < N := k.pos
  have hN' : (N : ℂ) ≠ 0 := by exact_mod_cast hN.ne'
  unfold ifft fft
  have h1 : ∀ x : Fin N, (1 / (N : ℂ) * ∑ j, g j * root N ((j : ℕ) * (x : ℕ) : ℤ)) * root N (-((k : ℕ) * (x : ℕ) : ℤ)) =
      1 / (N : ℂ) * ∑ j, g j * root N ((((j : ℕ) : ℤ) - (k : ℕ)) * (x : ℕ)) := by
    intro x
    rw [mul_assoc, Finset.sum_mul]
    congr 1
    refine Finset.sum_congr rfl fun j _ => ?_
    rw [mul_assoc, ← root_add]
    congr 2
    ring
  rw [Finset.sum_congr rfl fun x _ => h1 x, ← Finset.mul_sum, Finset.sum_comm]
  simp only [← Finset.mul_sum, sum_root N hN, dvd_sub_iff]
  simp
  field_simp

/-- Folding a sum over all frequencies onto the nonnegative ones. -/
theorem fold_sum (m : ℕ) (hm : 0 < m) (g : ℕ → ℝ) (hg : ∀ k, k ≤ 2 * m → g (2 * m - k) = g k) :
    ∑ k ∈ Finset.range (m + 1), (if k = 0 ∨ 2 * k = 2 * m then 1 else 2) * g k = ∑ k ∈ Finset.range (2 * m), g k := by
  obtain ⟨l, rfl⟩ : ∃ l, m = l + 1 := ⟨m - 1, by omega⟩
  rw [Finset.sum_range_succ, Finset.sum_range_succ']
  have h1 : ∑ k ∈ Finset.range l, (if k + 1 = 0 ∨ 2 * (k + 1) = 2 * (l + 1) then (1 : ℝ) else 2) * g (k + 1) =
      ∑ k ∈ Finset.range l, g (k + 1) + ∑ k ∈ Finset.range l, g (k + 1) := by
    rw [← Finset.sum_add_distrib]
    refine Finset.sum_congr rfl fun k hk => ?_
    rw [Finset.mem_range] at hk
    rw [if_neg (by omega)]
    ring
  rw [h1, show 2 * (l + 1) = (l + 1) + (l + 1) by ring, Finset.sum_range_add, Finset.sum_range_succ' g l, Finset.sum_range_succ' _ l]
  have h2 : ∑ k ∈ Finset.range l, g (l + 1 + (k + 1)) = ∑ k ∈ Finset.range l, g (k + 1) := by
    rw [← Finset.sum_range_reflect]
    refine Finset.sum_congr rfl fun k hk => ?_
    rw [Finset.mem_range] at hk
    have := hg (k + 1) (by omega)
    rw [← this]
    congr 1
    omega
  rw [h2]
  simp
  ring

theorem root_neg_re (N : ℕ) (n : ℤ) : (root N (-n)).re = (root N n).re := by
  have : root N (-n) = (starRingEnd ℂ) (root N n) := by
    rw [root, root, ← Complex.exp_conj]
    congr 1
    simp only [map_mul, map_div₀, conj_I, conj_ofReal, map_ofNat, map_intCast, map_natCast]
    push_cast
    ring
  rw [this, conj_re]

theorem root_mul_self (N : ℕ) (hN : 0 < N) (n : ℤ) : root N (N * n) = 1 := by
  have hN' : (N : ℂ) ≠ 0 := by exact_mod_cast hN.ne'
  rw [root, Complex.exp_eq_one_iff]
  refine ⟨n, ?_⟩
  push_cast
  field_simp

/-- `irfft` inverts `rfft` for even lengths. -/
theorem irfft_rfft {N : ℕ} (he : Even N) (f : Fin N → ℝ) : irfft (rfft f) = f := by
  funext x
  have hN : 0 < N := x.pos
  obtain ⟨m, hm⟩ := he
  have hm2 : N = 2 * m := by omega
  have hN' : (N : ℝ) ≠ 0 := by exact_mod_cast hN.ne'
  have hhalf : N / 2 = m := by omega
  have key : ∀ z : ℤ, ∑ k ∈ Finset.range (m + 1), (if k = 0 ∨ 2 * k = 2 * m then (1 : ℝ) else 2) * (root N (z * (k : ℕ))).re =
      if (N : ℤ) ∣ z then (N : ℝ) else 0 := by
    intro z
    rw [fold_sum m (by omega) (fun k => (root N (z * (k : ℕ))).re)]
    · have h := congrArg Complex.re (sum_root N hN z)
      rw [Complex.re_sum, Fin.sum_univ_eq_sum_range (fun k => (root N (z * (k : ℕ))).re) N] at h
      rw [← hm2, h]
      split <;> simp
    · intro k hk
      rw [← root_neg_re]
      have : -(z * ((2 * m - k : ℕ) : ℤ)) = (N : ℤ) * (-z) + z * (k : ℕ) := by
        rw [hm2]; push_cast [Nat.cast_sub hk]; ring
      rw [this, root_add, root_mul_self N hN, one_mul]
  unfold irfft rfft
  have h1 : ∀ k : ℕ, ((∑ y : Fin N, (f y : ℂ) * root N (-((k : ℕ) * (y : ℕ) : ℤ))) * root N ((k : ℕ) * (x : ℕ) : ℤ)).re =
      ∑ y : Fin N, f y * (root N ((((x : ℕ) : ℤ) - (y : ℕ)) * (k : ℕ))).re := by
    intro k
    rw [Finset.sum_mul, Complex.re_sum]
    refine Finset.sum_congr rfl fun y _ => ?_
    rw [mul_assoc, ← root_add, re_ofReal_mul]
    congr 3
    ring
  simp only [h1]
  rw [Fin.sum_univ_eq_sum_range (fun k => (if k = 0 ∨ 2 * k = N then (1 : ℝ) else 2) *
    ∑ y : Fin N, f y * (root N ((((x : ℕ) : ℤ) - (y : ℕ)) * (k : ℕ))).re) (N / 2 + 1), hhalf]
  simp only [Finset.mul_sum]
  rw [Finset.sum_comm]
  have h2 : ∀ y : Fin N, ∑ k ∈ Finset.range (m + 1), 1 / (N : ℝ) * ((if k = 0 ∨ 2 * k = N then (1 : ℝ) else 2) *
      (f y * (root N ((((x : ℕ) : ℤ) - (y : ℕ)) * (k : ℕ))).re)) = if x = y then f y else 0 := by
    intro y
    have h3 := key (((x : ℕ) : ℤ) - (y : ℕ))
    rw [← hm2] at h3
    have h4 : ∀ k ∈ Finset.range (m + 1), 1 / (N : ℝ) * ((if k = 0 ∨ 2 * k = N then (1 : ℝ) else 2) *
        (f y * (root N ((((x : ℕ) : ℤ) - (y : ℕ)) * (k : ℕ))).re)) = (1 / (N : ℝ) * f y) * ((if k = 0 ∨ 2 * k = N then (1 : ℝ) else 2) *
        (root N ((((x : ℕ) : ℤ) - (y : ℕ)) * (k : ℕ))).re) := by
      intro k _; ring
    rw [Finset.sum_congr rfl h4, ← Finset.mul_sum, h3]
    simp only [dvd_sub_iff]
    split
    · field_simp
    · simp
  rw [Finset.sum_congr rfl fun y _ => h2 y]
  simp

theorem irfft2_rfft2 {N : ℕ} (he : Even N) (f : Fin N → Fin N → ℝ) : irfft2 (rfft2 f) = f := by
  funext x1 x2
  unfold irfft2 rfft2
  have : ∀ k2, ifft (fun k1 => fft (fun x1 => rfft (f x1) k2) k1) x1 = rfft (f x1) k2 := fun k2 => congrFun (ifft_fft _) x1
  simp only [this]
  exact congrFun (irfft_rfft he (f x1)) x2

/-! ### Indices -/

variable {P n : ℕ}

@[simp] theorem split_glob (q : Fin P) (a : Fin n) : split (glob q a) = (q, a) := Equiv.symm_apply_apply _ _

@[simp] theorem glob_split (j : Fin (P * n)) : glob (split j).1 (split j).2 = j := Equiv.apply_symm_apply finProdFinEquiv j

end SpectralDNS.Short

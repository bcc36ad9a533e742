import Verif.Props.FFT

/-!
# The collocated real transform and Hermitian symmetry including the Nyquist modes
-/

namespace SpectralDNS.Periodic

open Complex

variable {n : ℕ}

theorem kernel_opposite (N : Fin (n + 1) → ℕ) (k k' : RModes N) (h : Opposite N k k') (x : Grid N) :
    kernel (waves N) N k' x = (starRingEnd ℂ) (kernel (waves N) N k x) := by
  rw [conj_kernel, kernel, Complex.exp_eq_exp_iff_exists_int]
  choose q hq using h
  refine ⟨∑ i, q i * (x i : ℕ), ?_⟩
  push_cast
  rw [Finset.mul_sum, Finset.mul_sum, Finset.sum_mul, ← Finset.sum_add_distrib]
  refine Finset.sum_congr rfl fun i _ => ?_
  have hN : (N i : ℂ) ≠ 0 := by
    have := (x i).isLt
    exact_mod_cast (by omega : N i ≠ 0)
  have hw : (waves N i k' : ℂ) = (N i : ℂ) * q i - waves N i k := by
    have : waves N i k' = N i * q i - waves N i k := by rw [← hq i]; ring
    rw [this]; push_cast; ring
  rw [hw]
  field_simp
  ring

/-- Coefficients of grid values are Hermitian, also at the Nyquist modes. -/
theorem forward_opposite (N : Fin (n + 1) → ℕ) (f : Grid N → ℝ) (k k' : RModes N) (h : Opposite N k k') :
    (rspace N N).forward f k' = (starRingEnd ℂ) ((rspace N N).forward f k) := by
  simp only [rspace, dft, map_mul, map_div₀, map_one, map_natCast, map_sum, conj_ofReal]
  congr 1
  exact Finset.sum_congr rfl fun x _ => by rw [kernel_opposite N k k' h]

theorem waves_mod_inj (N : Fin (n + 1) → ℕ) (k l : RModes N) (h : ∀ i, (N i : ℤ) ∣ waves N i k - waves N i l) : k = l := by
  funext i
  have hk := (k i).isLt
  have hl := (l i).isLt
  have h1 : ((k i : ℕ) : ℤ) ≡ (l i : ℕ) [ZMOD N i] := by
    have : (N i : ℤ) ∣ ((k i : ℕ) : ℤ) - (l i : ℕ) := by
      have := h i
      unfold waves at this
      by_cases hi : i = Fin.last n
      · rwa [if_pos hi, if_pos hi] at this
      · rw [if_neg hi, if_neg hi] at this
        obtain ⟨q, hq⟩ := this
        split at hq <;> split at hq
        · exact ⟨q, by linarith⟩
        · exact ⟨q - 1, by linarith⟩
        · exact ⟨q + 1, by linarith⟩
        · exact ⟨q, by linarith⟩
    exact (Int.modEq_iff_dvd.2 this).symm
  have h2 : (k i : ℕ) ≡ (l i : ℕ) [MOD N i] := (Int.natCast_modEq_iff).1 h1
  refine Fin.ext ?_
  have hd : rdim N i ≤ max (N i) 1 := by
    unfold rdim
    split <;> omega
  rcases Nat.lt_or_ge 1 (N i) with hN | hN
  · exact Nat.ModEq.eq_of_lt_of_lt h2 (by omega) (by omega)
  · omega

/-- The index of `-k` on the planes where it is stored. -/
theorem exists_opposite (N : Fin (n + 1) → ℕ) (hN : ∀ i, 0 < N i) (k : RModes N)
    (h0 : waves N (Fin.last n) k = 0 ∨ 2 * waves N (Fin.last n) k = N (Fin.last n)) : ∃ k', Opposite N k k' := by
  have hex : ∀ i, ∃ j : Fin (rdim N i), ∀ k' : RModes N, k' i = j → (N i : ℤ) ∣ waves N i k + waves N i k' := by
    intro i
    by_cases hi : i = Fin.last n
    · subst hi
      refine ⟨k (Fin.last n), fun k' hk' => ?_⟩
      have h1 : waves N (Fin.last n) k' = waves N (Fin.last n) k := by
        unfold waves
        rw [if_pos rfl, if_pos rfl, hk']
      rw [h1]
      rcases h0 with h0 | h0
      · simp [h0]
      · exact ⟨1, by omega⟩
    · have hk := (k i).isLt
      have hd : rdim N i = N i := by simp [rdim, hi]
      by_cases hz : (k i : ℕ) = 0
      · refine ⟨k i, fun k' hk' => ?_⟩
        unfold waves
        rw [if_neg hi, if_neg hi, hk', hz]
        simp [hN i]
      · refine ⟨⟨N i - (k i : ℕ), by omega⟩, fun k' hk' => ?_⟩
        have e : ((k' i : Fin (rdim N i)) : ℕ) = N i - (k i : ℕ) := by rw [hk']
        unfold waves
        simp only [if_neg hi, e]
        have e2 : ((N i - (k i : ℕ) : ℕ) : ℤ) = N i - (k i : ℕ) := by
          have : (k i : ℕ) < N i := hd ▸ hk
          omega
        rw [e2]
        split <;> split
        · exact ⟨1, by ring⟩
        · exact ⟨0, by ring⟩
        · exact ⟨0, by ring⟩
        · exact ⟨-1, by ring⟩
  choose f hf using hex
  exact ⟨f, fun i => hf i f rfl⟩

open Classical in
/-- Hermitian coefficients are recovered from their grid values; Nyquist modes included. -/
theorem forward_backward_herm (N : Fin (n + 1) → ℕ) (hN : ∀ i, 0 < N i) (b : RModes N → ℂ)
    (hherm : ∀ k k', Opposite N k k' → b k' = (starRingEnd ℂ) (b k)) :
    (rspace N N).forward ((rspace N N).backward b) = b := by
  funext k
  rw [rspace, forward_backward _ _ _ hN]
  rw [Finset.sum_eq_single k (fun l _ hlk => if_neg fun hd => hlk (waves_mod_inj N l k hd)) (by simp), if_pos (by simp)]
  have hop : ∀ l, (∀ i, (N i : ℤ) ∣ -waves N i l - waves N i k) ↔ Opposite N k l := fun l => forall_congr' fun i => by
    rw [← dvd_neg, show -(-waves N i l - waves N i k) = waves N i k + waves N i l by ring]
  simp only [hop]
  by_cases h0 : waves N (Fin.last n) k = 0 ∨ 2 * waves N (Fin.last n) k = N (Fin.last n)
  · obtain ⟨k', hk'⟩ := exists_opposite N hN k h0
    rw [Finset.sum_eq_single k' (fun l _ hl => if_neg fun hd => hl (waves_mod_inj N l k' fun i => by
      have := dvd_sub (hd i) (hk' i)
      rwa [add_sub_add_left_eq_sub] at this)) (by simp), if_pos hk', hherm k k' hk']
    have hw : rweight N k = 1 := if_pos h0
    have hw' : rweight N k' = 1 := by
      refine if_pos ?_
      have h1 := waves_bounds N k (Fin.last n)
      have h2 := waves_bounds N k' (Fin.last n)
      have h3 := waves_last_nonneg N k'
      rcases opposite_cases N k k' hk' (Fin.last n) with h | ⟨h, -⟩ <;> omega
    rw [hw, hw']
    simp
  · rw [Finset.sum_eq_zero]
    · rw [rweight, if_neg h0]
      push_cast
      ring
    · intro l _
      refine if_neg fun hd => h0 ?_
      have h2 := waves_last_nonneg N l
      have h3 := waves_last_nonneg N k
      rcases opposite_cases N k l hd (Fin.last n) with h | ⟨h, h'⟩ <;> omega

end SpectralDNS.Periodic

import Verif.Model.Dealias
import Verif.Spec.Product
import Verif.Props.FFT
import Mathlib.Order.Interval.Finset.Basic
import Mathlib.Data.Int.Interval
import Mathlib.Algebra.Order.Floor.Ring

/-! # C55: dealiasing -/

namespace SpectralDNS.Dealias

open Complex Spec Periodic

variable {d : ℕ}

/-! ## Lemmas -/

theorem conj_wave (M : Fin d → ℕ) (p : Fin d → ℤ) (x : Grid M) : (starRingEnd ℂ) (wave M p x) = wave M (-p) x := by
  have := conj_kernel (fun i (_ : Unit) => p i) M () x
  simpa [kernel, wave] using this

theorem wave_mul (M : Fin d → ℕ) (p q : Fin d → ℤ) (x : Grid M) : wave M p x * wave M q x = wave M (p + q) x := by
  rw [wave, wave, ← Complex.exp_add, wave, ← mul_add, ← Finset.sum_add_distrib]
  congr 2
  exact Finset.sum_congr rfl fun i _ => by simp only [Pi.add_apply]; push_cast; ring

open Classical in
/-- The coefficient computed on the grid contains all pairs whose sum is `k` up to multiples of the grid size. -/
theorem coeff_product (M : Fin d → ℕ) (hM : ∀ i, 0 < M i) (S : Finset (Fin d → ℤ)) (a b : (Fin d → ℤ) → ℂ) (k : Fin d → ℤ) :
    coeff M (fun x => field M S a x * field M S b x) k =
      ∑ p ∈ S, ∑ q ∈ S, if ∀ i, (M i : ℤ) ∣ p i + q i - k i then a p * b q else 0 := by
  have hcard : (Fintype.card (Grid M) : ℂ) ≠ 0 := by
    have : ∀ i, Nonempty (Fin (M i)) := fun i => ⟨⟨0, hM i⟩⟩
    exact_mod_cast Fintype.card_ne_zero
  have h1 : ∀ x : Grid M, field M S a x * field M S b x * (starRingEnd ℂ) (wave M k x) =
      ∑ p ∈ S, ∑ q ∈ S, a p * b q * wave M (p + q - k) x := by
    intro x
    rw [conj_wave, field, field, Finset.sum_mul_sum, Finset.sum_mul]
    refine Finset.sum_congr rfl fun p _ => ?_
    rw [Finset.sum_mul]
    refine Finset.sum_congr rfl fun q _ => ?_
    rw [sub_eq_add_neg, ← wave_mul, ← wave_mul]
    ring
  unfold coeff
  rw [Finset.sum_congr rfl fun x _ => h1 x, Finset.sum_comm, Finset.mul_sum]
  refine Finset.sum_congr rfl fun p _ => ?_
  rw [Finset.sum_comm, Finset.mul_sum]
  refine Finset.sum_congr rfl fun q _ => ?_
  rw [← Finset.mul_sum]
  have h2 : ∑ x : Grid M, wave M (p + q - k) x = if ∀ i, (M i : ℤ) ∣ p i + q i - k i then (Fintype.card (Grid M) : ℂ) else 0 := by
    exact grid_sum_exp M hM (p + q - k)
  rw [h2]
  split
  · field_simp
  · ring

open Classical in
/-- Aliasing is absent exactly if no three retained wavenumbers satisfy `p + q = k` modulo the grid without satisfying it. -/
theorem aliasFree_iff (M : Fin d → ℕ) (hM : ∀ i, 0 < M i) (S : Finset (Fin d → ℤ)) :
    AliasFree M S ↔ ∀ p ∈ S, ∀ q ∈ S, ∀ k ∈ S, (∀ i, (M i : ℤ) ∣ p i + q i - k i) → p + q = k := by
  constructor
  · intro h p hp q hq k hk hd
    by_contra hne
    have := h (fun l => if l = p then 1 else 0) (fun l => if l = q then 1 else 0) k hk
    rw [coeff_product M hM, productCoeff] at this
    rw [Finset.sum_eq_single p, Finset.sum_eq_single q, if_pos hd] at this
    · rw [Finset.sum_eq_zero] at this
      · simp at this
      · intro p' _
        refine Finset.sum_eq_zero fun q' _ => ?_
        by_cases h1 : p' = p
        · by_cases h2 : q' = q
          · subst h1 h2; simp [hne]
          · simp [h2]
        · simp [h1]
    · intro q' _ h2; simp [h2]
    · intro h2; exact absurd hq h2
    · intro p' _ h1; exact Finset.sum_eq_zero fun q' _ => by simp [h1]
    · intro h2; exact absurd hp h2
  · intro h a b k hk
    rw [coeff_product M hM, productCoeff]
    refine Finset.sum_congr rfl fun p hp => Finset.sum_congr rfl fun q hq => ?_
    by_cases hd : ∀ i, (M i : ℤ) ∣ p i + q i - k i
    · rw [if_pos hd, if_pos (h p hp q hq k hk hd)]
    · rw [if_neg hd, if_neg]
      rintro rfl
      apply hd
      intro i
      simp

/-! ## The two-thirds rule of the stand-alone solvers -/

/-- The wavenumbers retained by the mask. -/
noncomputable def retained (N : ℕ) : Finset (Fin 3 → ℤ) :=
  (Fintype.piFinset fun _ : Fin 3 => Finset.Icc (-(N : ℤ)) N).filter fun k => dealias N k = true

theorem kept_iff (N : ℕ) (k : ℤ) : kept N k = true ↔ 3 * |k| < 2 * ((N / 2 : ℕ) + 1 : ℤ) := by
  rw [kept, decide_eq_true_eq, kmax, ← Int.cast_abs]
  generalize N / 2 = n
  generalize |k| = a
  have h : (a : ℚ) < 2 / 3 * ((n + 1 : ℕ) : ℚ) ↔ ((3 * a : ℤ) : ℚ) < ((2 * (n + 1 : ℤ) : ℤ) : ℚ) := by
    push_cast
    constructor <;> intro h <;> linarith
  rw [h, Int.cast_lt]

theorem mem_retained (N : ℕ) (hN : 2 ≤ N) (k : Fin 3 → ℤ) : k ∈ retained N ↔ ∀ i, 3 * |k i| < 2 * ((N / 2 : ℕ) + 1 : ℤ) := by
  rw [retained, Finset.mem_filter, Fintype.mem_piFinset, dealias]
  simp only [Bool.and_eq_true, kept_iff, Finset.mem_Icc]
  constructor
  · rintro ⟨-, ⟨h0, h1⟩, h2⟩ i
    fin_cases i
    · exact h0
    · exact h1
    · exact h2
  · intro h
    refine ⟨fun i => ?_, ⟨h 0, h 1⟩, h 2⟩
    have h1 := h i
    have h2 : |k i| ≤ N := by omega
    exact abs_le.1 h2

/-- **C55** For even `N` the mask of the stand-alone solvers removes aliasing exactly if `N` leaves remainder 1 when divided by 3. -/
theorem C55_two_thirds_iff (N : ℕ) (hN : 0 < N) (he : Even N) : AliasFree (fun _ : Fin 3 => N) (retained N) ↔ N % 3 = 1 := by
  obtain ⟨n, rfl⟩ := he
  have h2 : 2 ≤ n + n := by omega
  rw [aliasFree_iff _ fun _ => hN]
  have hhalf : (n + n) / 2 = n := by omega
  constructor
  · intro h
    by_contra hmod
    -- three wavenumbers along the first axis
    have key : ∀ p k : ℤ, 3 * |p| < 2 * ((n : ℤ) + 1) → 3 * |k| < 2 * ((n : ℤ) + 1) → p + p - k = ((n + n : ℕ) : ℤ) → False := by
      intro p k hp hk hs
      have hm : ∀ z : ℤ, 3 * |z| < 2 * ((n : ℤ) + 1) → (![z, 0, 0] : Fin 3 → ℤ) ∈ retained (n + n) := by
        intro z hz
        rw [mem_retained _ h2]
        intro i
        rw [hhalf]
        fin_cases i
        · simpa using hz
        · show 3 * |(0 : ℤ)| < _
          rw [abs_zero]; omega
        · show 3 * |(0 : ℤ)| < _
          rw [abs_zero]; omega
      have := h _ (hm p hp) _ (hm p hp) _ (hm k hk) fun i => by
        fin_cases i
        · simp only [Fin.zero_eta, Matrix.cons_val_zero]
          exact ⟨1, by rw [hs]; ring⟩
        · simp
        · simp
      have h0 := congrFun this 0
      simp at h0
      push_cast at hs
      omega
    rcases (by omega : (n + n) % 3 = 0 ∨ (n + n) % 3 = 2) with hm | hm
    · refine key ((n + n) / 3 : ℤ) (-((n + n) / 3 : ℤ)) ?_ ?_ ?_
      · rw [abs_of_nonneg (by omega)]; omega
      · rw [abs_neg, abs_of_nonneg (by omega)]; omega
      · push_cast; omega
    · refine key ((n + n + 1) / 3 : ℤ) (2 * ((n + n + 1) / 3 : ℤ) - (n + n)) ?_ ?_ ?_
      · rw [abs_of_nonneg (by omega)]; omega
      · rw [abs_of_nonpos (by omega)]; omega
      · push_cast; ring
  · intro hmod p hp q hq k hk hd
    rw [mem_retained _ h2] at hp hq hk
    funext i
    have a := hp i
    have b := hq i
    have c := hk i
    rw [hhalf] at a b c
    have ha := abs_lt.1 (show |p i| < ((2 * (n : ℤ) + 2) - 3 * |p i|) + |p i| by omega)
    have e1 : |p i| ≤ (n + n) / 3 := by omega
    have e2 : |q i| ≤ (n + n) / 3 := by omega
    have e3 : |k i| ≤ (n + n) / 3 := by omega
    rw [abs_le] at e1 e2 e3
    obtain ⟨m, hm⟩ := hd i
    have : m = 0 := by
      by_contra hm0
      push_cast at hm
      rcases lt_or_gt_of_ne hm0 with h | h
      · have : (n + n : ℤ) * m ≤ -(n + n : ℤ) := by nlinarith
        omega
      · have : (n + n : ℤ) ≤ (n + n : ℤ) * m := by nlinarith
        omega
    rw [this, mul_zero] at hm
    simp only [Pi.add_apply]
    omega

/-- **C55, partial** The rule removes aliasing on the grid of spectralDNS3D_short.py (line 22, `N = 2**6`) and on every grid with an even
power of two.  Missing: the other sizes, where it does not (`C55_two_thirds_false`). -/
theorem C55_two_thirds_partial (m : ℕ) (hm : 0 < m) : AliasFree (fun _ : Fin 3 => 2 ^ (2 * m)) (retained (2 ^ (2 * m))) := by
  refine (C55_two_thirds_iff _ (by positivity) ?_).2 ?_
  · exact (Nat.even_pow.2 ⟨even_two, by omega⟩)
  · rw [pow_mul, Nat.pow_mod]; norm_num

/-- **C55 fails** on every grid with an odd power of two, among them the default `2**7` of cpp/spectralDNS.cpp:33-41. -/
theorem C55_two_thirds_false (m : ℕ) : ¬ AliasFree (fun _ : Fin 3 => 2 ^ (2 * m + 1)) (retained (2 ^ (2 * m + 1))) := by
  rw [C55_two_thirds_iff _ (by positivity) (Nat.even_pow.2 ⟨even_two, by omega⟩)]
  rw [pow_succ, pow_mul, Nat.mul_mod, Nat.pow_mod]
  norm_num

/-! ## The 3/2-rule -/

/-- Wavenumbers left by the Nyquist mask. -/
noncomputable def unmasked (N : Fin d → ℕ) : Finset (Fin d → ℤ) :=
  (Fintype.piFinset fun i => Finset.Icc (-(N i : ℤ)) (N i)).filter fun k => ∀ i, -(N i : ℤ) < 2 * k i ∧ 2 * k i < N i

theorem mem_unmasked (N : Fin d → ℕ) (k : Fin d → ℤ) : k ∈ unmasked N ↔ ∀ i, -(N i : ℤ) < 2 * k i ∧ 2 * k i < N i := by
  rw [unmasked, Finset.mem_filter, Fintype.mem_piFinset]
  refine ⟨fun h => h.2, fun h => ⟨fun i => ?_, h⟩⟩
  have := h i
  rw [Finset.mem_Icc]
  constructor <;> omega

/-- **C55** The padded grids of the 3/2-rule compute products without aliasing on all modes but the Nyquist ones, for all sizes. -/
theorem C55_three_halves (N : Fin d → ℕ) (hN : ∀ i, 0 < N i) : AliasFree (fun i => padded (N i)) (unmasked N) := by
  rcases em (∀ i, 0 < padded (N i)) with hM | hM
  · rw [aliasFree_iff _ hM]
    intro p hp q hq k hk hd
    rw [mem_unmasked] at hp hq hk
    funext i
    have a := hp i
    have b := hq i
    have c := hk i
    obtain ⟨m, hm⟩ := hd i
    have hM3 : (3 * (N i : ℤ) - 1) ≤ 2 * (padded (N i) : ℤ) := by unfold padded; omega
    have : m = 0 := by
      by_contra hm0
      have := hN i
      rcases lt_or_gt_of_ne hm0 with h | h
      · have : (padded (N i) : ℤ) * m ≤ -(padded (N i) : ℤ) := by nlinarith
        omega
      · have : (padded (N i) : ℤ) ≤ (padded (N i) : ℤ) * m := by nlinarith
        omega
    rw [this, mul_zero] at hm
    simp only [Pi.add_apply]
    omega
  · exfalso
    apply hM
    intro i
    have := hN i
    unfold padded
    omega

/-- Without dealiasing (`--dealias None`) there is aliasing on every grid with 3 or at least 5 points. -/
theorem C55_none_false (N : ℕ) (hN : 3 ≤ N) (h4 : N ≠ 4) : ¬ AliasFree (fun _ : Fin 1 => N) (unmasked fun _ => N) := by
  rw [aliasFree_iff _ fun _ => by omega]
  intro h
  obtain ⟨m, hm⟩ : ∃ m : ℤ, m = ((N : ℤ) - 1) / 2 := ⟨_, rfl⟩
  have := h (fun _ => m) ((mem_unmasked _ _).2 fun _ => by constructor <;> omega) (fun _ => m)
    ((mem_unmasked _ _).2 fun _ => by constructor <;> omega)
    (fun _ => 2 * m - N) ((mem_unmasked _ _).2 fun _ => by constructor <;> omega) fun _ => ⟨1, by ring⟩
  have h0 := congrFun this 0
  simp only [Pi.add_apply] at h0
  omega

/-! ## The products in the transforms of the solvers -/

/-- The coefficients of the real field which `T.backward` builds from the half spectrum `a`. -/
noncomputable def extend {n : ℕ} (N : Fin (n + 1) → ℕ) (a : RModes N → ℂ) (p : Fin (n + 1) → ℤ) : ℂ :=
  ((∑ l, if (fun i => waves N i l) = p then (rweight N l : ℂ) * a l else 0) +
    ∑ l, if (fun i => -waves N i l) = p then (rweight N l : ℂ) * (starRingEnd ℂ) (a l) else 0) / 2

theorem backward_field {n : ℕ} (N M : Fin (n + 1) → ℕ) (a : RModes N → ℂ) (hmask : ∀ k, nyquistMask N k = false → a k = 0)
    (x : Grid M) : (((rspace N M).backward a x : ℝ) : ℂ) = field M (unmasked N) (extend N a) x := by
  have h1 : (((rspace N M).backward a x : ℝ) : ℂ) = (∑ l, (rweight N l : ℂ) * a l * wave M (fun i => waves N i l) x +
      ∑ l, (rweight N l : ℂ) * (starRingEnd ℂ) (a l) * wave M (fun i => -waves N i l) x) / 2 := by
    simp only [rspace, dft]
    rw [re_eq_add_conj, map_sum]
    simp only [map_mul, conj_ofReal]
    congr 2
    refine Finset.sum_congr rfl fun l _ => ?_
    rw [show kernel (waves N) M l x = wave M (fun i => waves N i l) x from rfl, conj_wave]
    rfl
  rw [h1]
  have hterm : ∀ (c : RModes N → ℂ) (f : RModes N → Fin (n + 1) → ℤ), (∀ l, c l ≠ 0 → f l ∈ unmasked N) →
      ∑ l, c l * wave M (f l) x = ∑ p ∈ unmasked N, (∑ l, if f l = p then c l else 0) * wave M p x := by
    intro c f hf
    simp only [Finset.sum_mul]
    rw [Finset.sum_comm]
    refine Finset.sum_congr rfl fun l _ => ?_
    by_cases hc : c l = 0
    · rw [hc]; simp
    · rw [Finset.sum_eq_single (f l)]
      · simp
      · intro p _ hp; simp [Ne.symm hp]
      · intro h; exact absurd (hf l hc) h
  have hmem : ∀ l, a l ≠ 0 → ∀ i, -(N i : ℤ) < 2 * waves N i l ∧ 2 * waves N i l < N i := by
    intro l hl
    rw [← nyquistMask_iff]
    by_contra h
    exact hl (hmask l (by simpa using h))
  rw [hterm _ (fun l i => waves N i l), hterm _ (fun l i => -waves N i l), ← Finset.sum_add_distrib, Finset.sum_div]
  · refine Finset.sum_congr rfl fun p _ => ?_
    rw [extend]; ring
  · intro l hl
    rw [mem_unmasked]
    intro i
    have := hmem l (fun h => hl (by rw [h]; simp)) i
    constructor <;> omega
  · intro l hl
    rw [mem_unmasked]
    intro i
    exact hmem l (fun h => hl (by rw [h]; simp)) i

/-- **C55** In the solvers: with the 3/2-rule and the Nyquist mask, the product computed by two backward transforms, a multiplication on
the padded grid and a forward transform has the coefficients of the true product, on every unmasked mode. -/
theorem C55_product_rspace {n : ℕ} (N : Fin (n + 1) → ℕ) (hN : ∀ i, 0 < N i) (a b : RModes N → ℂ)
    (ha : ∀ k, nyquistMask N k = false → a k = 0) (hb : ∀ k, nyquistMask N k = false → b k = 0)
    (k : RModes N) (hk : nyquistMask N k = true) :
    let T := rspace N fun i => padded (N i)
    T.forward (fun x => T.backward a x * T.backward b x) k = productCoeff (unmasked N) (extend N a) (extend N b) fun i => waves N i k := by
  intro T
  rw [← C55_three_halves N hN _ _ _ ((mem_unmasked N _).2 ((nyquistMask_iff N k).1 hk))]
  simp only [T]
  unfold coeff
  simp only [rspace, dft]
  congr 1
  refine Finset.sum_congr rfl fun x _ => ?_
  rw [← backward_field N _ a ha x, ← backward_field N _ b hb x]
  push_cast
  rfl

/-- The hypotheses are met by the field with the single mode `exp(i x)` on eight points. -/
example : let N : Fin 1 → ℕ := fun _ => 8
    let a : RModes N → ℂ := fun k => if waves N 0 k = 1 then 1 else 0
    (∀ k, nyquistMask N k = false → a k = 0) ∧ ∃ k, nyquistMask N k = true ∧ a k ≠ 0 := by
  intro N a
  constructor
  · intro k hk
    have : waves N 0 k ≠ 1 := by
      intro h
      rw [← Bool.not_eq_true, nyquistMask_iff] at hk
      apply hk
      intro i
      obtain rfl : i = 0 := Fin.eq_zero i
      rw [h]
      simp [N]
    simp [a, this]
  · refine ⟨fun _ => ⟨1, by simp only [rdim, N]; split <;> norm_num⟩, ?_, ?_⟩
    · decide +kernel
    · simp [a, waves]

end SpectralDNS.Dealias

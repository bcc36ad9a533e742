import Verif.Spec.Torus
import Verif.Lemmas.Leibniz
import Mathlib.MeasureTheory.Integral.Pi
import Mathlib.Analysis.SpecialFunctions.Integrals.Basic
import Mathlib.Analysis.SpecialFunctions.ExpDeriv

/-!
# Trigonometric polynomials as functions on the box: derivatives, means, exactness of the padded grids
-/

namespace SpectralDNS.Torus

open Complex Spec Periodic Dealias MeasureTheory

variable {n d : ℕ}

/-! ## Derivatives -/

section
variable {ι : Type*} [Fintype ι]

theorem trigField_hasDeriv (w : ι → ℝ) (K : Fin d → ι → ℝ) (a : ι → ℂ) (j : Fin d) (x : Fin d → ℝ) :
    HasDerivAt (fun t => trigField w K a (Function.update x j t)) (trigField w K (Spec.deriv K j a) x) (x j) := by
  have hre : ∀ (f : ℝ → ℂ) (f' : ℂ) (t : ℝ), HasDerivAt f f' t → HasDerivAt (fun s => (f s).re) f'.re t := fun f f' t h => by
    simpa [Function.comp_def] using (reCLM.hasFDerivAt (x := f t)).comp_hasDerivAt t (f := f) h
  refine hre _ _ _ (HasDerivAt.fun_sum fun k _ => ?_)
  have h1 : HasDerivAt (fun t : ℝ => ∑ i, (K i k : ℂ) * ((Function.update x j t i : ℝ) : ℂ)) (K j k : ℂ) (x j) := by
    have : ∀ i, HasDerivAt (fun t : ℝ => (K i k : ℂ) * ((Function.update x j t i : ℝ) : ℂ)) (if i = j then (K i k : ℂ) else 0) (x j) := fun i => by
      by_cases h : i = j
      · subst h
        simpa using (ofRealCLM.hasDerivAt (x := x i)).const_mul (K i k : ℂ)
      · simp only [Function.update_of_ne h, if_neg h]
        exact hasDerivAt_const _ _
    refine (HasDerivAt.fun_sum fun i _ => this i).congr_deriv ?_
    simp
  have h2 := ((h1.const_mul I).cexp).const_mul ((w k : ℂ) * a k)
  refine h2.congr_deriv ?_
  rw [Function.update_eq_self, Spec.deriv]
  ring

theorem pderiv_trigField (w : ι → ℝ) (K : Fin d → ι → ℝ) (a : ι → ℂ) (j : Fin d) :
    pderiv j (trigField w K a) = trigField w K (Spec.deriv K j a) := funext fun x => (trigField_hasDeriv w K a j x).deriv

theorem trigField_continuous (w : ι → ℝ) (K : Fin d → ι → ℝ) (a : ι → ℂ) : Continuous (trigField w K a) := by
  unfold trigField
  fun_prop

theorem trigField_sum {J : Type*} (s : Finset J) (w : ι → ℝ) (K : Fin d → ι → ℝ) (a : J → ι → ℂ) (x : Fin d → ℝ) :
    trigField w K (fun k => ∑ j ∈ s, a j k) x = ∑ j ∈ s, trigField w K (a j) x := by
  simp only [trigField, Finset.mul_sum, Finset.sum_mul, ← re_sum]
  rw [Finset.sum_comm]

end

/-! ## The waves on the box -/

/-- `exp(2 pi i p.x/L)`. -/
noncomputable def cwave (L : Fin d → ℝ) (p : Fin d → ℤ) (x : Fin d → ℝ) : ℂ := Complex.exp (I * ∑ i, ((2 * Real.pi / L i * p i : ℝ) : ℂ) * x i)

theorem cwave_mul (L : Fin d → ℝ) (p q : Fin d → ℤ) (x : Fin d → ℝ) : cwave L p x * cwave L q x = cwave L (p + q) x := by
  rw [cwave, cwave, ← Complex.exp_add, cwave, ← mul_add, ← Finset.sum_add_distrib]
  congr 2
  exact Finset.sum_congr rfl fun i _ => by simp only [Pi.add_apply]; push_cast; ring

theorem conj_cwave (L : Fin d → ℝ) (p : Fin d → ℤ) (x : Fin d → ℝ) : (starRingEnd ℂ) (cwave L p x) = cwave L (-p) x := by
  rw [cwave, ← Complex.exp_conj, cwave]
  congr 1
  rw [map_mul, map_sum, conj_I, neg_mul, ← mul_neg, ← Finset.sum_neg_distrib]
  congr 1
  refine Finset.sum_congr rfl fun i _ => ?_
  rw [map_mul, conj_ofReal, conj_ofReal]
  simp only [Pi.neg_apply]
  push_cast
  ring

theorem cwave_continuous (L : Fin d → ℝ) (p : Fin d → ℤ) : Continuous (cwave L p) := by
  unfold cwave
  fun_prop

theorem integral_wave1 (L : ℝ) (hL : 0 < L) (p : ℤ) :
    ∫ x in Set.Icc 0 L, Complex.exp (((2 * Real.pi / L * p : ℝ) : ℂ) * I * x) = if p = 0 then (L : ℂ) else 0 := by
  rw [integral_Icc_eq_integral_Ioc, ← intervalIntegral.integral_of_le hL.le]
  split_ifs with h
  · simp [h]
  · have hc : ((2 * Real.pi / L * p : ℝ) : ℂ) * I ≠ 0 := by
      refine mul_ne_zero ?_ I_ne_zero
      have : (2 * Real.pi / L * p : ℝ) ≠ 0 := by
        have := Real.pi_pos
        have hp : (p : ℝ) ≠ 0 := by exact_mod_cast h
        positivity
      exact_mod_cast this
    rw [integral_exp_mul_complex hc]
    have : ((2 * Real.pi / L * p : ℝ) : ℂ) * I * L = p * (2 * Real.pi * I) := by
      have : (L : ℂ) ≠ 0 := by exact_mod_cast hL.ne'
      push_cast
      field_simp
    rw [this, Complex.exp_int_mul_two_pi_mul_I]
    simp

/-- Only the constant wave has a mean. -/
theorem integral_cwave (L : Fin d → ℝ) (hL : ∀ i, 0 < L i) (p : Fin d → ℤ) :
    ∫ x in Set.Icc 0 L, cwave L p x = if p = 0 then ((∏ i, L i : ℝ) : ℂ) else 0 := by
  have e : ∀ x, cwave L p x = ∏ i, Complex.exp (((2 * Real.pi / L i * p i : ℝ) : ℂ) * I * x i) := fun x => by
    rw [cwave, Finset.mul_sum, Complex.exp_sum]
    exact Finset.prod_congr rfl fun i _ => by congr 1; ring
  rw [← Set.pi_univ_Icc, volume_pi, Measure.restrict_pi_pi]
  simp only [e]
  rw [integral_fintype_prod_eq_prod (fun i (y : ℝ) => Complex.exp (((2 * Real.pi / L i * p i : ℝ) : ℂ) * I * y))]
  simp only [Pi.zero_apply]
  rw [Finset.prod_congr rfl fun i _ => integral_wave1 (L i) (hL i) (p i)]
  split_ifs with h
  · simp [h]
  · obtain ⟨i, hi⟩ : ∃ i, p i ≠ 0 := by
      by_contra h'
      push Not at h'
      exact h (funext h')
    exact Finset.prod_eq_zero (Finset.mem_univ i) (if_neg hi)

/-- The function of a half spectrum without Nyquist modes as a sum over all its wavenumbers. -/
theorem trigField_eq (N : Fin (n + 1) → ℕ) (L : Fin (n + 1) → ℝ) (a : RModes N → ℂ) (hmask : Unmasked N a) (x : Fin (n + 1) → ℝ) :
    ((trigField (rweight N) (scaledWaves N L) a x : ℝ) : ℂ) = ∑ p ∈ unmasked N, extend N a p * cwave L p x := by
  have h1 : ((trigField (rweight N) (scaledWaves N L) a x : ℝ) : ℂ) = (∑ l, (rweight N l : ℂ) * a l * cwave L (fun i => waves N i l) x +
      ∑ l, (rweight N l : ℂ) * (starRingEnd ℂ) (a l) * cwave L (fun i => -waves N i l) x) / 2 := by
    rw [trigField, re_eq_add_conj, map_sum]
    simp only [map_mul, conj_ofReal]
    congr 2
    refine Finset.sum_congr rfl fun l _ => ?_
    congr 1
    exact conj_cwave L (fun i => waves N i l) x
  rw [h1]
  have hterm : ∀ (c : RModes N → ℂ) (f : RModes N → Fin (n + 1) → ℤ), (∀ l, c l ≠ 0 → f l ∈ unmasked N) →
      ∑ l, c l * cwave L (f l) x = ∑ p ∈ unmasked N, (∑ l, if f l = p then c l else 0) * cwave L p x := by
    intro c f hf
    simp only [Finset.sum_mul]
    rw [Finset.sum_comm]
    refine Finset.sum_congr rfl fun l _ => ?_
    by_cases hc : c l = 0
    · rw [hc]; simp
    · rw [Finset.sum_eq_single (f l)]
      · simp
      · intro p _ hp; simp [Ne.symm hp]
      · intro h; exact absurd (hf l hc) h
  have hmem : ∀ l, a l ≠ 0 → ∀ i, -(N i : ℤ) < 2 * waves N i l ∧ 2 * waves N i l < N i := by
    intro l hl
    rw [← nyquistMask_iff]
    by_contra h
    exact hl (hmask l (by simpa using h))
  rw [hterm _ (fun l i => waves N i l), hterm _ (fun l i => -waves N i l), ← Finset.sum_add_distrib, Finset.sum_div]
  · refine Finset.sum_congr rfl fun p _ => ?_
    rw [Dealias.extend]; ring
  · intro l hl
    rw [mem_unmasked]
    intro i
    have := hmem l (fun h => hl (by rw [h]; simp)) i
    constructor <;> omega
  · intro l hl
    rw [mem_unmasked]
    intro i
    exact hmem l (fun h => hl (by rw [h]; simp)) i

/-! ## Exactness of the padded grid -/

/-- The mean over the padded grid of a product of three functions is the mean over the box. -/
theorem mean_three (N : Fin (n + 1) → ℕ) (hN : ∀ i, 0 < N i) (L : Fin (n + 1) → ℝ) (hL : ∀ i, 0 < L i) (a b c : RModes N → ℂ)
    (ha : Unmasked N a) (hb : Unmasked N b) (hc : Unmasked N c) :
    boxMean L (fun x => trigField (rweight N) (scaledWaves N L) a x * trigField (rweight N) (scaledWaves N L) b x *
      trigField (rweight N) (scaledWaves N L) c x) = 1 / Fintype.card (Grid fun i => padded (N i)) *
      ∑ x, (rspace N fun i => padded (N i)).backward a x * (rspace N fun i => padded (N i)).backward b x *
        (rspace N fun i => padded (N i)).backward c x := by
  have hM : ∀ i, 0 < padded (N i) := fun i => by have := hN i; unfold padded; omega
  refine ofReal_injective ?_
  have hprod : ((∏ i, L i : ℝ) : ℂ) ≠ 0 := by exact_mod_cast (Finset.prod_pos fun i _ => hL i).ne'
  have hcard : (Fintype.card (Grid fun i => padded (N i)) : ℂ) ≠ 0 := by
    have : ∀ i, Nonempty (Fin (padded (N i))) := fun i => ⟨⟨0, hM i⟩⟩
    exact_mod_cast Fintype.card_ne_zero
  rw [boxMean, ofReal_mul, ← integral_complex_ofReal]
  have e1 : ∀ x, ((trigField (rweight N) (scaledWaves N L) a x * trigField (rweight N) (scaledWaves N L) b x *
      trigField (rweight N) (scaledWaves N L) c x : ℝ) : ℂ) = ∑ p ∈ unmasked N, ∑ q ∈ unmasked N, ∑ r ∈ unmasked N,
        extend N a p * extend N b q * extend N c r * cwave L (p + q + r) x := fun x => by
    rw [ofReal_mul, ofReal_mul, trigField_eq N L a ha, trigField_eq N L b hb, trigField_eq N L c hc, Finset.sum_mul_sum, Finset.sum_mul]
    refine Finset.sum_congr rfl fun p _ => ?_
    rw [Finset.sum_mul_sum]
    refine Finset.sum_congr rfl fun q _ => Finset.sum_congr rfl fun r _ => ?_
    rw [← cwave_mul, ← cwave_mul]
    ring
  have e2 : ∀ x : Grid fun i => padded (N i), (((rspace N fun i => padded (N i)).backward a x * (rspace N fun i => padded (N i)).backward b x *
        (rspace N fun i => padded (N i)).backward c x : ℝ) : ℂ) = ∑ p ∈ unmasked N, ∑ q ∈ unmasked N, ∑ r ∈ unmasked N,
        extend N a p * extend N b q * extend N c r * wave (fun i => padded (N i)) (p + q + r) x := fun x => by
    rw [ofReal_mul, ofReal_mul, backward_field N _ a ha, backward_field N _ b hb, backward_field N _ c hc, field, field, field,
      Finset.sum_mul_sum, Finset.sum_mul]
    refine Finset.sum_congr rfl fun p _ => ?_
    rw [Finset.sum_mul_sum]
    refine Finset.sum_congr rfl fun q _ => Finset.sum_congr rfl fun r _ => ?_
    rw [← wave_mul, ← wave_mul]
    ring
  have hint : ∀ (c : ℂ) p, Integrable (fun x => c * cwave L p x) (volume.restrict (Set.Icc 0 L)) := fun c p =>
    (continuous_const.mul (cwave_continuous L p)).integrableOn_Icc
  simp only [e1]
  rw [integral_finset_sum _ fun p _ => integrable_finset_sum _ fun q _ => integrable_finset_sum _ fun r _ => hint _ _, ofReal_mul, ofReal_sum,
    Finset.sum_congr rfl fun x _ => e2 x, Finset.sum_comm, Finset.mul_sum, Finset.mul_sum]
  refine Finset.sum_congr rfl fun p hp => ?_
  rw [integral_finset_sum _ fun q _ => integrable_finset_sum _ fun r _ => hint _ _, Finset.sum_comm, Finset.mul_sum, Finset.mul_sum]
  refine Finset.sum_congr rfl fun q hq => ?_
  rw [integral_finset_sum _ fun r _ => hint _ _, Finset.sum_comm, Finset.mul_sum, Finset.mul_sum]
  refine Finset.sum_congr rfl fun r hr => ?_
  rw [integral_const_mul, ← Finset.mul_sum, integral_cwave L hL, mul_left_comm, mul_left_comm _ (extend N a p * extend N b q * extend N c r)]
  congr 1
  have hw : ∑ x : Grid fun i => padded (N i), wave (fun i => padded (N i)) (p + q + r) x = if ∀ i, ((padded (N i) : ℕ) : ℤ) ∣ (p + q + r) i then
      (Fintype.card (Grid fun i => padded (N i)) : ℂ) else 0 := grid_sum_exp _ hM (p + q + r)
  have hiff : (∀ i, ((padded (N i) : ℕ) : ℤ) ∣ (p + q + r) i) ↔ p + q + r = 0 := by
    constructor
    · intro h
      have hr' : -r ∈ unmasked N := (mem_unmasked N _).2 fun i => by have := (mem_unmasked N r).1 hr i; simp only [Pi.neg_apply]; constructor <;> omega
      have := (aliasFree_iff _ hM (unmasked N)).1 (C55_three_halves N hN) p hp q hq (-r) hr' fun i => by simpa using h i
      rw [this]; simp
    · intro h i; rw [h]; simp
  rw [hw]
  by_cases h : p + q + r = 0
  · rw [if_pos h, if_pos (hiff.2 h)]
    push_cast at hprod ⊢
    field_simp
  · rw [if_neg h, if_neg fun h' => h (hiff.1 h')]
    simp

/-- The coefficients of the constant one. -/
def unitArr (N : Fin (n + 1) → ℕ) (k : RModes N) : ℂ := if ∀ i, waves N i k = 0 then 1 else 0

theorem exists_zero_mode (N : Fin (n + 1) → ℕ) (hN : ∀ i, 0 < N i) : ∃ k : RModes N, ∀ i, waves N i k = 0 :=
  ⟨fun i => ⟨0, by unfold rdim; split <;> [omega; exact hN i]⟩, fun i => by simp [waves, hN i]⟩

theorem unitArr_unmasked (N : Fin (n + 1) → ℕ) (hN : ∀ i, 0 < N i) : Unmasked N (unitArr N) := fun k hk => by
  refine if_neg fun h => ?_
  rw [nyquistMask, decide_eq_false_iff_not] at hk
  exact hk fun i => by have := hN i; rw [h i]; constructor <;> omega

theorem sum_unitArr (N : Fin (n + 1) → ℕ) (hN : ∀ i, 0 < N i) (e : RModes N → ℂ) (he : ∀ k, (∀ i, waves N i k = 0) → e k = 1) :
    ∑ k, (rweight N k : ℂ) * unitArr N k * e k = 1 := by
  obtain ⟨k0, h0⟩ := exists_zero_mode N hN
  rw [Finset.sum_eq_single k0]
  · rw [he k0 h0, unitArr, if_pos h0, rweight, if_pos (Or.inl (h0 _))]; simp
  · intro k _ hk
    rw [unitArr, if_neg fun h => hk (waves_inj N k k0 fun i => by rw [h i, h0 i])]
    simp
  · simp

theorem unitArr_field (N : Fin (n + 1) → ℕ) (hN : ∀ i, 0 < N i) (L : Fin (n + 1) → ℝ) (x : Fin (n + 1) → ℝ) :
    trigField (rweight N) (scaledWaves N L) (unitArr N) x = 1 := by
  rw [trigField, sum_unitArr N hN _ fun k hk => by simp [scaledWaves, hk]]
  simp

theorem unitArr_backward (N M : Fin (n + 1) → ℕ) (hN : ∀ i, 0 < N i) (x : Grid M) : (rspace N M).backward (unitArr N) x = 1 := by
  simp only [rspace, dft]
  rw [sum_unitArr N hN (fun k => kernel (waves N) M k x) fun k hk => by simp [kernel, hk]]
  simp

/-- Mean of a product of two functions on the padded grid. -/
theorem mean_two (N : Fin (n + 1) → ℕ) (hN : ∀ i, 0 < N i) (L : Fin (n + 1) → ℝ) (hL : ∀ i, 0 < L i) (a b : RModes N → ℂ)
    (ha : Unmasked N a) (hb : Unmasked N b) :
    boxMean L (fun x => trigField (rweight N) (scaledWaves N L) a x * trigField (rweight N) (scaledWaves N L) b x) =
      1 / Fintype.card (Grid fun i => padded (N i)) *
      ∑ x, (rspace N fun i => padded (N i)).backward a x * (rspace N fun i => padded (N i)).backward b x := by
  have := mean_three N hN L hL a b (unitArr N) ha hb (unitArr_unmasked N hN)
  simpa only [unitArr_field N hN L, unitArr_backward N _ hN, mul_one] using this

/-- The coefficients belong to a real function. -/
def IsReal (N : Fin (n + 1) → ℕ) (a : RModes N → ℂ) : Prop := ∀ k k', (∀ i, waves N i k' = -waves N i k) → a k' = (starRingEnd ℂ) (a k)

/-- Parseval: the mean product of two functions from their coefficients. -/
theorem mean_inner (N : Fin (n + 1) → ℕ) (hN : ∀ i, 0 < N i) (L : Fin (n + 1) → ℝ) (hL : ∀ i, 0 < L i) (a b : RModes N → ℂ)
    (ha : Unmasked N a) (hb : Unmasked N b) (hr : IsReal N b) :
    boxMean L (fun x => trigField (rweight N) (scaledWaves N L) a x * trigField (rweight N) (scaledWaves N L) b x) = Spec.inner (rweight N) a b := by
  rw [mean_two N hN L hL a b ha hb]
  have h1 := dft_adjoint (kernel (waves N) fun i => padded (N i)) (rweight N) a ((rspace N fun i => padded (N i)).backward b)
  have h2 := rspace_inverse N (fun i => padded (N i)) hN (fun i => by unfold padded; omega) b hb hr
  refine h1.symm.trans ?_
  exact Finset.sum_congr rfl fun k _ => by rw [show (dft (kernel (waves N) fun i => padded (N i)) (rweight N)).forward
    ((rspace N fun i => padded (N i)).backward b) = b from h2]

end SpectralDNS.Torus

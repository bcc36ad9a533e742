import Verif.Model.Isotropic
import Verif.Props.FFT
import Verif.Props.VV
import Mathlib.Analysis.SpecialFunctions.Trigonometric.Basic

/-! # C56, C58, C59: the isotropic turbulence demo -/

namespace SpectralDNS.Isotropic

open Complex Periodic

variable {ι X : Type*}

/-! ## Spec -/

/-- Energy (with weights `w`) in the modes satisfying `P`. -/
noncomputable def energyIn [Fintype ι] (w : ι → ℝ) (P : ι → Prop) [DecidablePred P] (u : SArr 3 ι) : ℝ :=
  ∑ k, if P k then w k * ∑ i, normSq (u i k) else 0

/-! ## Lemmas -/

theorem projectOut_solenoidal (K : Fin 3 → ι → ℝ) (u : SArr 3 ι) : Spec.Solenoidal K (projectOut K u) := by
  intro k
  have hd : Spec.dot (Spec.at' K k) (Spec.at' u k) = K 0 k * u 0 k + K 1 k * u 1 k + K 2 k * u 2 k := by
    simp [Spec.dot, Spec.at', Fin.sum_univ_three]
  have h1 : Spec.at' (projectOut K u) k = fun i => Spec.at' u k i - Spec.dot (Spec.at' K k) (Spec.at' u k) * K_over_K2 K i k := by
    funext i; rw [hd]; rfl
  rw [h1, dot_sub]
  have h2 : Spec.dot (Spec.at' K k) (fun i => Spec.dot (Spec.at' K k) (Spec.at' u k) * (K_over_K2 K i k : ℂ)) =
      Spec.dot (Spec.at' K k) (Spec.at' u k) * ∑ i, (K i k : ℂ) * K_over_K2 K i k := by
    rw [dot_smul]; rfl
  rw [h2]
  by_cases h0 : K2 K k = 0
  · have hz := (K2_eq_zero K k).1 h0
    have : Spec.dot (Spec.at' K k) (Spec.at' u k) = 0 := by simp [Spec.dot, Spec.at', hz]
    rw [this]; simp
  · have h3 : (∑ i, (K i k : ℂ) * K_over_K2 K i k) = 1 := by exact_mod_cast congrArg (fun x : ℝ => (x : ℂ)) (sum_K_KoK2 K k h0)
    rw [h3, mul_one, sub_self]

theorem zeroMean_solenoidal [DecidableEq ι] (o : ι) (K : Fin 3 → ι → ℝ) (u : SArr 3 ι) (hu : Spec.Solenoidal K u) :
    Spec.Solenoidal K (zeroMean o u) := by
  intro k
  by_cases h : k = o
  · subst h; simp [Spec.dot, Spec.at', zeroMean]
  · have : Spec.at' (zeroMean o u) k = Spec.at' u k := by funext i; simp [Spec.at', zeroMean, h]
    rw [this]; exact hu k

theorem scale_solenoidal (K : Fin 3 → ι → ℝ) (u : SArr 3 ι) (hu : Spec.Solenoidal K u) (c : ι → ℂ) :
    Spec.Solenoidal K fun i k => u i k * c k := by
  intro k
  have : Spec.at' (fun i k => u i k * c k : SArr 3 ι) k = fun i => c k * Spec.at' u k i := by funext i; simp [Spec.at', mul_comm]
  rw [this, dot_smul, hu k, mul_zero]

theorem energy_scale [Fintype ι] (w : ι → ℝ) (u : SArr 3 ι) (c : ι → ℝ) :
    energy w (fun i k => u i k * (c k : ℂ)) = ∑ k, c k ^ 2 * (w k * ∑ i, normSq (u i k)) := by
  unfold energy
  refine Finset.sum_congr rfl fun k _ => ?_
  simp only [map_mul, normSq_ofReal, ← Finset.sum_mul]
  ring

theorem energy_smul [Fintype ι] (w : ι → ℝ) (u : SArr 3 ι) (c : ℝ) :
    energy w (fun i k => (c : ℂ) * u i k) = c ^ 2 * energy w u := by
  have := energy_scale w u fun _ => c
  rw [← Finset.mul_sum] at this
  rw [← energy] at this
  rw [← this]
  congr 1
  funext i k
  ring

theorem mask_sq (p : Params) (K : Fin 3 → ι → ℝ) (k : ι) : k2_mask p K k = 1 ∨ k2_mask p K k = 0 := by
  unfold k2_mask; split <;> simp

theorem energy_lower [Fintype ι] (p : Params) (K : Fin 3 → ι → ℝ) (w : ι → ℝ) (u : SArr 3 ι) [DecidablePred fun k => K2 K k ≤ (p.Kf2 : ℝ) ^ 2] :
    energy w (fun i k => u i k * k2_mask p K k) = energyIn w (fun k => K2 K k ≤ (p.Kf2 : ℝ) ^ 2) u := by
  rw [energy_scale]
  refine Finset.sum_congr rfl fun k _ => ?_
  unfold k2_mask
  split <;> simp_all

theorem energy_split [Fintype ι] (w : ι → ℝ) (P : ι → Prop) [DecidablePred P] (u : SArr 3 ι) :
    energy w u = energyIn w P u + energyIn w (fun k => ¬ P k) u := by
  unfold energy energyIn
  rw [← Finset.sum_add_distrib]
  refine Finset.sum_congr rfl fun k _ => ?_
  by_cases h : P k <;> simp [h]

open Classical in
/-- What a successful forcing does. -/
theorem force_some [Fintype ι] (p : Params) (K : Fin 3 → ι → ℝ) (w : ι → ℝ) (tgt : ℝ) (u u' : SArr 3 ι)
    (h : force p K w tgt u = some u') :
    energy w u' = tgt ∧ ∃ a : ℝ, 0 ≤ a ∧ u' = fun i k => u i k * ((a * k2_mask p K k + (1 - k2_mask p K k) : ℝ) : ℂ) := by
  unfold force at h
  dsimp only at h
  split_ifs at h with h1 h2
  simp only [Option.some.injEq] at h
  rw [← h]
  refine ⟨?_, _, Real.sqrt_nonneg _, rfl⟩
  push Not at h1
  obtain ⟨hne, hpos⟩ := h1
  rw [energy_scale]
  set e := energy w (fun i k => u i k * (k2_mask p K k : ℂ)) with he
  set a2 := (tgt - (energy w u - e)) / e with ha
  have hs := Real.sq_sqrt hpos
  have h3 : ∀ k, (√a2 * k2_mask p K k + (1 - k2_mask p K k)) ^ 2 * (w k * ∑ i, normSq (u i k)) =
      a2 * (k2_mask p K k ^ 2 * (w k * ∑ i, normSq (u i k))) + ((w k * ∑ i, normSq (u i k)) - k2_mask p K k ^ 2 * (w k * ∑ i, normSq (u i k))) := by
    intro k
    rcases mask_sq p K k with h | h <;> rw [h]
    · linear_combination (w k * ∑ i, normSq (u i k)) * hs
    · ring
  rw [Finset.sum_congr rfl fun k _ => h3 k, Finset.sum_add_distrib, ← Finset.mul_sum, Finset.sum_sub_distrib, ← energy_scale, ← he, ← energy]
  rw [ha]
  field_simp
  ring

/-! ## C56: the forcing -/

open Classical in
/-- **C56** The forcing succeeds whenever the large scales have positive energy and the small scales no more than the target; the new
energy is the target exactly, the small scales are untouched, and the large scales are multiplied by a common real factor. -/
theorem C56_forcing [Fintype ι] [DecidableEq ι] (p : Params) (K : Fin 3 → ι → ℝ) (o : ι) (ho : ∀ i, K i o = 0) (w : ι → ℝ) (tgt : ℝ)
    (u : SArr 3 ι) (hlow : 0 < energyIn w (fun k => K2 K k ≤ (p.Kf2 : ℝ) ^ 2 ∧ k ≠ o) u)
    (hup : energyIn w (fun k => (p.Kf2 : ℝ) ^ 2 < K2 K k) u ≤ tgt) :
    ∃ u', updateNS p K o w tgt u = some u' ∧ energy w u' = tgt ∧ (∀ i, u' i o = 0) ∧
      (∀ k, (p.Kf2 : ℝ) ^ 2 < K2 K k → ∀ i, u' i k = u i k) ∧
      ∃ a : ℝ, 0 ≤ a ∧ ∀ k, k ≠ o → K2 K k ≤ (p.Kf2 : ℝ) ^ 2 → ∀ i, u' i k = a * u i k := by
  have hK2o : K2 K o ≤ (p.Kf2 : ℝ) ^ 2 := by rw [(K2_eq_zero K o).2 ho]; positivity
  have hlow' : energy w (fun i k => zeroMean o u i k * k2_mask p K k) = energyIn w (fun k => K2 K k ≤ (p.Kf2 : ℝ) ^ 2 ∧ k ≠ o) u := by
    rw [energy_lower]
    refine Finset.sum_congr rfl fun k _ => ?_
    by_cases hk : k = o
    · subst hk; simp [zeroMean]
    · simp [hk, zeroMean]
  have hup' : energyIn w (fun k => ¬ K2 K k ≤ (p.Kf2 : ℝ) ^ 2) (zeroMean o u) = energyIn w (fun k => (p.Kf2 : ℝ) ^ 2 < K2 K k) u := by
    refine Finset.sum_congr rfl fun k _ => ?_
    by_cases hk : k = o
    · subst hk; simp [not_lt.2 hK2o, hK2o]
    · simp [hk, zeroMean]
  have hsplit := energy_split w (fun k => K2 K k ≤ (p.Kf2 : ℝ) ^ 2) (zeroMean o u)
  rw [hup', ← energy_lower, hlow'] at hsplit
  have hex : ∃ u', force p K w tgt (zeroMean o u) = some u' := by
    unfold force
    dsimp only
    rw [hlow', if_neg]
    · set u' : SArr 3 ι := _
      by_cases hlt : √((energy w u' - tgt) ^ 2) < 1e-7
      · exact ⟨u', if_pos hlt⟩
      · exfalso
        apply hlt
        -- the assertion of line 184 holds
        suffices hE : energy w u' = tgt by rw [hE]; norm_num
        have ha : (0 : ℝ) ≤ (tgt - (energy w (zeroMean o u) - energyIn w (fun k => K2 K k ≤ (p.Kf2 : ℝ) ^ 2 ∧ k ≠ o) u)) /
            energyIn w (fun k => K2 K k ≤ (p.Kf2 : ℝ) ^ 2 ∧ k ≠ o) u := by
          apply div_nonneg _ hlow.le
          rw [hsplit]; linarith
        have hs := Real.sq_sqrt ha
        rw [energy_scale]
        have h3 : ∀ k, ∀ a : ℝ, (a * k2_mask p K k + (1 - k2_mask p K k)) ^ 2 * (w k * ∑ i, normSq (zeroMean o u i k)) =
            a ^ 2 * (k2_mask p K k ^ 2 * (w k * ∑ i, normSq (zeroMean o u i k))) +
              ((w k * ∑ i, normSq (zeroMean o u i k)) - k2_mask p K k ^ 2 * (w k * ∑ i, normSq (zeroMean o u i k))) := by
          intro k a
          rcases mask_sq p K k with h | h <;> rw [h] <;> ring
        rw [Finset.sum_congr rfl fun k _ => h3 k _, Finset.sum_add_distrib, ← Finset.mul_sum, Finset.sum_sub_distrib, ← energy_scale,
          hlow', hs, ← energy]
        field_simp
        ring
    · push Not
      refine ⟨hlow.ne', div_nonneg ?_ hlow.le⟩
      rw [hsplit]; linarith
  obtain ⟨u', hu'⟩ := hex
  obtain ⟨hE, a, ha, rfl⟩ := force_some p K w tgt _ u' hu'
  refine ⟨_, hu', hE, fun i => by simp [zeroMean], fun k hk i => ?_, a, ha, fun k hko hk i => ?_⟩
  · have hko : k ≠ o := by rintro rfl; exact absurd hK2o (not_le.2 hk)
    simp [k2_mask, not_le.2 hk, zeroMean, hko]
  · simp [k2_mask, hk, zeroMean, hko, mul_comm]

open Classical in
/-- The other cases raise: with the small scales above the target (and some energy in the large ones) `update` fails its assertion. -/
theorem C56_forcing_fails [Fintype ι] [DecidableEq ι] (p : Params) (K : Fin 3 → ι → ℝ) (o : ι) (ho : ∀ i, K i o = 0) (w : ι → ℝ) (tgt : ℝ)
    (u : SArr 3 ι) (hw : ∀ k, 0 ≤ w k) (h : tgt < energyIn w (fun k => (p.Kf2 : ℝ) ^ 2 < K2 K k) u) : updateNS p K o w tgt u = none := by
  have hK2o : K2 K o ≤ (p.Kf2 : ℝ) ^ 2 := by rw [(K2_eq_zero K o).2 ho]; positivity
  rcases hf : updateNS p K o w tgt u with _ | u'
  · rfl
  exfalso
  obtain ⟨hE, a, -, rfl⟩ := force_some p K w tgt _ u' hf
  rw [energy_split w (fun k => (p.Kf2 : ℝ) ^ 2 < K2 K k)] at hE
  have h1 : energyIn w (fun k => (p.Kf2 : ℝ) ^ 2 < K2 K k) (fun i k => zeroMean o u i k *
      ((a * k2_mask p K k + (1 - k2_mask p K k) : ℝ) : ℂ)) = energyIn w (fun k => (p.Kf2 : ℝ) ^ 2 < K2 K k) u := by
    refine Finset.sum_congr rfl fun k _ => ?_
    by_cases hk : (p.Kf2 : ℝ) ^ 2 < K2 K k
    · have hko : k ≠ o := by rintro rfl; exact absurd hK2o (not_le.2 hk)
      simp [hk, k2_mask, not_le.2 hk, zeroMean, hko]
    · simp [hk]
  have h2 : 0 ≤ energyIn w (fun k => ¬ (p.Kf2 : ℝ) ^ 2 < K2 K k) (fun i k => zeroMean o u i k *
      ((a * k2_mask p K k + (1 - k2_mask p K k) : ℝ) : ℂ)) := by
    refine Finset.sum_nonneg fun k _ => ?_
    split
    · exact mul_nonneg (hw k) (Finset.sum_nonneg fun i _ => normSq_nonneg _)
    · exact le_rfl
  rw [h1] at hE
  linarith

/-- **C56** The forcing keeps the field divergence free and the physical field real. -/
theorem C56_forcing_keeps [Fintype ι] [DecidableEq ι] (p : Params) (K : Fin 3 → ι → ℝ) (o : ι) (w : ι → ℝ) (tgt : ℝ) (u u' : SArr 3 ι)
    (h : updateNS p K o w tgt u = some u') :
    (Spec.Solenoidal K u → Spec.Solenoidal K u') ∧
    ∀ R : ι → ι → Prop, (∀ k k', R k k' → K2 K k' = K2 K k ∧ (k' = o ↔ k = o)) → Spec.Hermitian R u → Spec.Hermitian R u' := by
  obtain ⟨-, a, -, rfl⟩ := force_some p K w tgt _ u' h
  refine ⟨fun hu => scale_solenoidal K _ (zeroMean_solenoidal o K u hu) _, fun R hR hu k k' hk i => ?_⟩
  obtain ⟨h1, h2⟩ := hR k k' hk
  have hm : k2_mask p K k' = k2_mask p K k := by simp [k2_mask, h1]
  by_cases ho : k = o
  · have ho' := h2.2 ho
    subst ho
    simp [zeroMean, ho']
  · have ho' : k' ≠ o := fun h => ho (h2.1 h)
    dsimp only
    rw [map_mul, conj_ofReal, hm]
    simp only [zeroMean, Function.update_of_ne ho, Function.update_of_ne ho']
    rw [hu k k' hk i]

/-- **C56** Over a whole run, whatever the time steps do, the energy after the callback is the target. -/
theorem C56_run [Fintype ι] [DecidableEq ι] (p : Params) (K : Fin 3 → ι → ℝ) (o : ι) (w : ι → ℝ) (tgt : ℝ)
    (steps : List (SArr 3 ι → SArr 3 ι)) (u u' : SArr 3 ι) (hne : steps ≠ [] ∨ energy w u = tgt)
    (h : run p K o w tgt steps u = some u') : energy w u' = tgt := by
  induction steps generalizing u with
  | nil =>
    simp only [run, List.foldlM_nil, Option.pure_def, Option.some.injEq] at h
    subst h
    simpa using hne
  | cons s l ih =>
    rw [run, List.foldlM_cons] at h
    obtain ⟨v, hv, hl⟩ := Option.bind_eq_some_iff.1 h
    exact ih v (Or.inr (force_some p K w tgt _ v hv).1) hl

/-- **C56** The same for the VV solver; the new vorticity is the curl of the new velocity, which is divergence free. -/
theorem C56_forcing_VV [Fintype ι] [DecidableEq ι] (p : Params) (K : Fin 3 → ι → ℝ) (o : ι) (w : ι → ℝ) (tgt : ℝ) (u W : SArr 3 ι)
    (u' W' : SArr 3 ι) (h : updateVV p K o w tgt u W = some (u', W')) :
    energy w u' = tgt ∧ Spec.Solenoidal K u' ∧ W' = Spec.curl K u' := by
  unfold updateVV at h
  dsimp only at h
  obtain ⟨v, hv, he⟩ := Option.map_eq_some_iff.1 h
  obtain ⟨rfl, rfl⟩ := Prod.mk.inj he
  obtain ⟨hE, a, -, rfl⟩ := force_some p K w tgt _ v hv
  refine ⟨hE, scale_solenoidal K _ (C08_velocity_solenoidal (zeroMean o u) W K).1 _, cross2_3d_eq _ _ _⟩

/-! ## C56: the initial field -/

/-- **C56** For every random draw, every transform and mask: the initial field is divergence free, without mean, and its kinetic energy is
the target. -/
theorem C56_initial [Fintype ι] [DecidableEq ι] (p : Params) (T : Space ι X) (mask : ι → Bool) (K : Fin 3 → ι → ℝ) (o : ι) (w : ι → ℝ)
    (r : Fin 3 → ι → ℝ) (u : SArr 3 ι) (tgt : ℝ) (h : initializeNS p T mask K o w r = some (u, tgt)) :
    Spec.Solenoidal K u ∧ (∀ i, u i o = 0) ∧ tgt = energy w u ∧ energy w u / 2 = target p := by
  unfold initializeNS at h
  dsimp only at h
  obtain ⟨v, hv, he⟩ := Option.map_eq_some_iff.1 h
  obtain ⟨rfl, rfl⟩ := Prod.mk.inj he
  unfold rescale at hv
  dsimp only at hv
  split_ifs at hv with hc
  simp only [Option.some.injEq] at hv
  push Not at hc
  rw [← hv]
  set b := zeroMean o (projectOut K (T.vforward (T.vbackward (maskNyquist (some mask) (rogallo p K r))))) with hb
  have hbs : Spec.Solenoidal K b := zeroMean_solenoidal o K _ (projectOut_solenoidal K _)
  refine ⟨?_, fun i => by simp [hb, zeroMean], rfl, ?_⟩
  · have := scale_solenoidal K b hbs fun _ => (√(target p / (0.5 * energy w b)) : ℂ)
    intro k
    rw [← this k]
    congr 1
    funext i
    simp [Spec.at', mul_comm]
  · rw [energy_smul, Real.sq_sqrt hc.2]
    have hne : energy w b ≠ 0 := fun h0 => hc.1 (by rw [h0, mul_zero])
    field_simp
    ring

/-- **C56** On the real grids the initial field is that of a real velocity. -/
theorem C56_initial_real (p : Params) (N : Fin 3 → ℕ) (hN : ∀ i, 0 < N i) (L : Fin 3 → ℝ) (hL : ∀ i, L i ≠ 0) (o : RModes N)
    (ho : ∀ i, waves N i o = 0) (w : RModes N → ℝ) (r : Fin 3 → RModes N → ℝ) (u : SArr 3 (RModes N)) (tgt : ℝ) [DecidableEq (RModes N)]
    (h : initializeNS p (rspace N N) (nyquistMask N) (scaledWaves N L) o w r = some (u, tgt)) : Spec.Hermitian (Opposite N) u := by
  classical
  unfold initializeNS at h
  dsimp only at h
  obtain ⟨v, hv, he⟩ := Option.map_eq_some_iff.1 h
  obtain ⟨rfl, rfl⟩ := Prod.mk.inj he
  unfold rescale at hv
  dsimp only at hv
  split_ifs at hv with hc
  simp only [Option.some.injEq] at hv
  rw [← hv]
  set g := (rspace N N).vforward ((rspace N N).vbackward (maskNyquist (some (nyquistMask N)) (rogallo p (scaledWaves N L) r))) with hg
  -- no Nyquist modes
  have hny : ∀ i k, nyquistMask N k = false → g i k = 0 := by
    intro i k hk
    rw [hg, Space.vforward, Space.vbackward, rspace, forward_backward _ _ _ hN]
    have hmem : ∀ l : RModes N, (∀ j, (N j : ℤ) ∣ waves N j l - waves N j k) ∨ (∀ j, (N j : ℤ) ∣ -waves N j l - waves N j k) →
        nyquistMask N l = false := by
      intro l hl
      rw [← Bool.not_eq_true, nyquistMask_iff] at hk ⊢
      intro hall
      apply hk
      intro j
      have h1 := hall j
      have h2 := waves_bounds N k j
      have h3 : (N j : ℤ) ∣ waves N j l - waves N j k ∨ (N j : ℤ) ∣ -waves N j l - waves N j k := hl.imp (fun h => h j) (fun h => h j)
      have hs : ∀ a : ℤ, (N j : ℤ) ∣ a → -(N j : ℤ) < a → a < N j → a = 0 := by
        intro a hd h1 h2
        by_contra h
        rcases lt_or_gt_of_ne h with h | h
        · have := Int.le_of_dvd (by omega) ((Int.dvd_neg).2 hd)
          omega
        · have := Int.le_of_dvd h hd
          omega
      rcases h3 with h3 | h3
      · have := hs _ h3 (by omega) (by omega)
        omega
      · have := hs _ h3 (by omega) (by omega)
        omega
    rw [Finset.sum_eq_zero, Finset.sum_eq_zero]
    · simp
    · intro l _
      split
      · rename_i hd
        rw [mask_zero (hmem l (Or.inr hd))]; simp
      · rfl
    · intro l _
      split
      · rename_i hd
        rw [mask_zero (hmem l (Or.inl hd))]; simp
      · rfl
  have hherm : ∀ k k', Opposite N k k' → ∀ i, projectOut (scaledWaves N L) g i k' = (starRingEnd ℂ) (projectOut (scaledWaves N L) g i k) := by
    intro k k' hk i
    by_cases hodd : ∀ i, waves N i k' = -waves N i k
    · have hK := (scaled_odd N L hL k k').2 hodd
      have hg' : ∀ j, g j k' = (starRingEnd ℂ) (g j k) := fun j => rspace_forward_conj N N _ k k' hodd
      simp only [projectOut, KoK2_odd hK i, hK, hg', map_sub, map_mul, map_add, conj_ofReal, ofReal_neg]
      ring
    · push Not at hodd
      obtain ⟨j, hj⟩ := hodd
      obtain ⟨h1, h2⟩ := (opposite_cases N k k' hk j).resolve_left hj
      have m1 : nyquistMask N k = false := by
        rw [nyquistMask, decide_eq_false_iff_not]; push Not; refine ⟨j, ?_⟩; omega
      have m2 : nyquistMask N k' = false := by
        rw [nyquistMask, decide_eq_false_iff_not]; push Not; refine ⟨j, ?_⟩; omega
      simp [projectOut, hny _ _ m1, hny _ _ m2]
  intro k k' hk i
  have hoo : k' = o ↔ k = o := by
    have key : ∀ a b, Opposite N a b → a = o → b = o := by
      intro a b hab ha
      refine waves_inj N b o fun i => ?_
      have ha0 : waves N i a = 0 := by rw [ha]; exact ho i
      have := hN i
      rcases opposite_cases N a b hab i with h | ⟨h, h'⟩
      · rw [h, ha0, ho i, neg_zero]
      · rw [h, ha0, ho i]
    refine ⟨fun h => key k' k (fun i => ?_) h, key k k' hk⟩
    rw [add_comm]; exact hk i
  rw [map_mul, conj_ofReal]
  by_cases hk0 : k = o
  · have := hoo.2 hk0
    subst hk0
    simp [zeroMean, this]
  · have hk0' : k' ≠ o := fun h => hk0 (hoo.1 h)
    simp only [zeroMean, Function.update_of_ne hk0, Function.update_of_ne hk0']
    rw [hherm k k' hk i]

/-- **C56 fails with the VV solver**: whatever the draw, the velocity is overwritten by that of the still vanishing vorticity, the energy
is zero and the scaling divides by it. -/
theorem C56_initial_VV_false [Fintype ι] [DecidableEq ι] (p : Params) (T : Space ι X) (hb : T.backward 0 = 0) (hf : T.forward 0 = 0)
    (mask : ι → Bool) (K : Fin 3 → ι → ℝ) (o : ι) (w : ι → ℝ) (s : SArr 3 ι) (r : Fin 3 → ι → ℝ) :
    initializeVV p T mask K o w s r = none := by
  have hU : compute_velocity s (0 : SArr 3 ι) T (K_over_K2 K) = 0 := by
    funext i
    have : cross2_3d s (K_over_K2 K) (0 : SArr 3 ι) i = 0 := by
      rw [cross2_3d_eq]; funext k; simp [Spec.curl, Spec.cross]
    show T.backward (cross2_3d s (K_over_K2 K) 0 i) = 0
    rw [this, hb]
  have hF : T.vforward (0 : PArr 3 X) = 0 := by funext i; exact hf
  have hz : zeroMean o (projectOut K (0 : SArr 3 ι)) = 0 := by
    funext i k
    by_cases h : k = o
    · subst h; simp [zeroMean]
    · simp [zeroMean, h, projectOut]
  unfold initializeVV
  dsimp only
  rw [hU, hF, hz]
  simp [rescale, energy]

/-- The transforms of the solvers send zero to zero. -/
example (N M : Fin 3 → ℕ) : (rspace N M).backward 0 = 0 ∧ (rspace N M).forward 0 = 0 := by
  constructor
  · funext x; simp [rspace, dft]
  · funext k; simp [rspace, dft]

/-- The field before projection is not divergence free (the sign of its third component is not that of the reference); only the later
projection makes it so. -/
theorem C56_raw_divergence (p : Params) (K : Fin 3 → ι → ℝ) (r : Fin 3 → ι → ℝ) (k : ι) (h : K 0 k ≠ 0 ∨ K 1 k ≠ 0) :
    Spec.dot (Spec.at' K k) (Spec.at' (rogallo p K r) k) =
      2 * beta p K r k * K 2 k * ((√(K 0 k ^ 2 + K 1 k ^ 2) / √(K2 K k) : ℝ) : ℂ) := by
  have hp : 0 < K 0 k ^ 2 + K 1 k ^ 2 := by
    rcases h with h | h
    · have := sq_pos_of_ne_zero h; positivity
    · have := sq_pos_of_ne_zero h; positivity
  have hs : √(K 0 k ^ 2 + K 1 k ^ 2) ≠ 0 := (Real.sqrt_pos.2 hp).ne'
  have hk2 : 0 < K2 K k := by
    have : K2 K k = K 0 k ^ 2 + K 1 k ^ 2 + K 2 k ^ 2 := by simp [K2, Fin.sum_univ_three]; ring
    rw [this]; positivity
  have hk : √(K2 K k) ≠ 0 := (Real.sqrt_pos.2 hk2).ne'
  have hsq : ((√(K 0 k ^ 2 + K 1 k ^ 2) : ℝ) : ℂ) ^ 2 = K 0 k ^ 2 + K 1 k ^ 2 := by exact_mod_cast congrArg (fun x : ℝ => (x : ℂ)) (Real.sq_sqrt hp.le)
  simp only [Spec.dot, Spec.at', Fin.sum_univ_three, rogallo, kMag, kPlane, if_neg hs, if_neg hk]
  push_cast
  have hs' : ((√(K 0 k ^ 2 + K 1 k ^ 2) : ℝ) : ℂ) ≠ 0 := by exact_mod_cast hs
  have hk' : ((√(K2 K k) : ℝ) : ℂ) ≠ 0 := by exact_mod_cast hk
  field_simp
  rw [hsq]
  ring

/-- A draw for which the initialisation succeeds (one mode besides the mean, all draws 0). -/
example : let K : Fin 3 → Fin 2 → ℝ := ![![0, 1], ![0, 1], ![0, 0]]
    ∃ u tgt, initializeNS ⟨3, 1, 1, 1⟩ (⟨fun f k => f k, fun a x => (a x).re⟩ : Space (Fin 2) (Fin 2)) (fun _ => true) K 0 (fun _ => 1)
      (fun _ _ => 0) = some (u, tgt) := by
  intro K
  have hK2 : K2 K 1 = 2 := by simp [K2, Fin.sum_univ_three, K]; norm_num
  set p : Params := ⟨3, 1, 1, 1⟩ with hp
  have hE : 0 < Ek p K 1 := by
    have : k2_mask p K 1 = 1 := by rw [k2_mask, hK2, hp]; norm_num
    rw [Ek, this, hK2, hp]
    norm_num
  set c : ℝ := √(Ek p K 1 / 4 / Real.pi / kSq K 1) with hcdef
  have hc : 0 < c := Real.sqrt_pos.2 (by rw [kSq, hK2]; norm_num; positivity)
  have h2 : √(2 : ℝ) ≠ 0 := by positivity
  have ha : alpha p K (fun _ _ => 0) 1 = c := by simp [alpha, angle, hcdef]
  have hb : beta p K (fun _ _ => 0) 1 = 0 := by simp [beta, angle]
  have hm : kMag K 1 = √2 := by rw [kMag, hK2, if_neg h2]
  have hq : kPlane K 1 = √2 := by
    have : K 0 1 ^ 2 + K 1 1 ^ 2 = 2 := by simp [K]; norm_num
    rw [kPlane, this, if_neg h2]
  have hr0 : rogallo p K (fun _ _ => 0) 0 1 = ((c / √2 : ℝ) : ℂ) := by
    have h2' : ((√2 : ℝ) : ℂ) ≠ 0 := by exact_mod_cast h2
    simp only [rogallo, ha, hb, hm, hq]
    simp [K]
    field_simp
  have hr1 : rogallo p K (fun _ _ => 0) 1 1 = ((-(c / √2) : ℝ) : ℂ) := by
    have h2' : ((√2 : ℝ) : ℂ) ≠ 0 := by exact_mod_cast h2
    simp only [rogallo, ha, hb, hm, hq]
    simp [K]
    field_simp
  have hr2 : rogallo p K (fun _ _ => 0) 2 1 = ((0 : ℝ) : ℂ) := by simp only [rogallo, hb]; simp
  have ht : 0 < target p := by rw [target, hp]; positivity
  unfold initializeNS
  dsimp only
  set u := zeroMean (0 : Fin 2) (projectOut K _) with hu
  have hu0 : u 0 1 = ((c / √2 : ℝ) : ℂ) := by
    simp only [hu, zeroMean, Function.update_of_ne (by decide : (1 : Fin 2) ≠ 0), projectOut, Space.vforward, Space.vbackward, maskNyquist,
      if_true, mul_one, hr0, hr1, hr2, ofReal_re]
    simp [K]
  have he : 0 < 0.5 * energy (fun _ => (1 : ℝ)) u := by
    have h1 : normSq (u 0 1) ≤ energy (fun _ => (1 : ℝ)) u := by
      simp only [energy, one_mul]
      refine le_trans ?_ (Finset.single_le_sum (f := fun k => ∑ i, normSq (u i k)) (fun k _ => Finset.sum_nonneg fun i _ => normSq_nonneg _)
        (Finset.mem_univ 1))
      exact Finset.single_le_sum (f := fun i => normSq (u i 1)) (fun i _ => normSq_nonneg _) (Finset.mem_univ 0)
    rw [hu0, normSq_ofReal] at h1
    have : 0 < c / √2 * (c / √2) := by positivity
    linarith
  have : rescale p (fun _ => 1) u = some fun i k => (√(target p / (0.5 * energy (fun _ => (1 : ℝ)) u)) : ℝ) * u i k := by
    unfold rescale
    dsimp only
    rw [if_neg]
    push Not
    exact ⟨he.ne', (div_pos ht he).le⟩
  rw [this]
  exact ⟨_, _, rfl⟩

/-- A state for which the forcing succeeds: one mode below, one above the forcing radius. -/
example : let K : Fin 3 → Fin 3 → ℝ := ![![0, 1, 5], 0, 0]
    let u : SArr 3 (Fin 3) := ![0, ![0, 1, 1], 0]
    ∃ u', updateNS ⟨3, 1, 1, 1⟩ K 0 (fun _ => 1) 5 u = some u' ∧ u' 1 2 = 1 := by
  classical
  intro K u
  have hK : K2 K 0 = 0 ∧ K2 K 1 = 1 ∧ K2 K 2 = 25 := by
    refine ⟨?_, ?_, ?_⟩ <;> simp [K2, Fin.sum_univ_three, K]
    norm_num
  obtain ⟨u', h1, -, -, h2, -⟩ := C56_forcing ⟨3, 1, 1, 1⟩ K 0 (fun i => by fin_cases i <;> simp [K]) (fun _ => 1) 5 u
    (by simp [energyIn, Fin.sum_univ_three, hK, u]; norm_num) (by simp [energyIn, Fin.sum_univ_three, hK, u]; norm_num)
  refine ⟨u', h1, ?_⟩
  rw [h2 2 (by rw [hK.2.2]; norm_num) 1]
  simp [u]

/-! ## C58: the random phases -/

/-- What the draw really gives: `theta` is imaginary, so `exp(i theta)` is a positive real number. -/
theorem C58_phase_exact (r : ℝ) : Complex.exp (I * angle r) = (Real.exp (-(2 * Real.pi * r)) : ℝ) := by
  rw [ofReal_exp]
  congr 1
  simp only [angle]
  push_cast
  linear_combination (2 * (r : ℂ) * Real.pi) * I_mul_I

/-- ... and the angle between the two components is imaginary too: `cos phi = cosh`, `sin phi = i sinh`. -/
theorem C58_angle_exact (r : ℝ) : Complex.cos (angle r) = (Real.cosh (2 * Real.pi * r) : ℝ) ∧
    Complex.sin (angle r) = (Real.sinh (2 * Real.pi * r) : ℝ) * I := by
  have h : angle r = ((2 * Real.pi * r : ℝ) : ℂ) * I := by simp only [angle]; push_cast; ring
  rw [h, Complex.cos_mul_I, Complex.sin_mul_I]
  simp

/-- **C58 fails**: whatever the draw, the first coefficient is a nonnegative real number and the second a purely imaginary one: the
phases are not random. -/
theorem C58_phase_false (p : Params) (K : Fin 3 → ι → ℝ) (r : Fin 3 → ι → ℝ) (k : ι) :
    (∃ a : ℝ, 0 ≤ a ∧ alpha p K r k = a) ∧ ∃ b : ℝ, beta p K r k = b * I := by
  constructor
  · refine ⟨√(Ek p K k / 4 / Real.pi / kSq K k) * Real.exp (-(2 * Real.pi * r 0 k)) * Real.cosh (2 * Real.pi * r 2 k), ?_, ?_⟩
    · have := Real.cosh_pos (2 * Real.pi * r 2 k)
      positivity
    · rw [alpha, C58_phase_exact, (C58_angle_exact _).1]; push_cast; ring
  · refine ⟨√(Ek p K k / 4 / Real.pi / kSq K k) * Real.exp (-(2 * Real.pi * r 1 k)) * Real.sinh (2 * Real.pi * r 2 k), ?_⟩
    rw [beta, C58_phase_exact, (C58_angle_exact _).2]; push_cast; ring

/-- The energy of a mode, exactly, for every draw. -/
theorem C58_spectrum_exact (p : Params) (K : Fin 3 → ι → ℝ) (r : Fin 3 → ι → ℝ) (k : ι) (h : K 0 k ≠ 0 ∨ K 1 k ≠ 0) :
    ∑ i, normSq (rogallo p K r i k) = normSq (alpha p K r k) + normSq (beta p K r k) := by
  have hp : 0 < K 0 k ^ 2 + K 1 k ^ 2 := by
    rcases h with h | h
    · have := sq_pos_of_ne_zero h; positivity
    · have := sq_pos_of_ne_zero h; positivity
  have hs : √(K 0 k ^ 2 + K 1 k ^ 2) ≠ 0 := (Real.sqrt_pos.2 hp).ne'
  have hK : K2 K k = K 0 k ^ 2 + K 1 k ^ 2 + K 2 k ^ 2 := by simp [K2, Fin.sum_univ_three]; ring
  have hk2 : 0 < K2 K k := by rw [hK]; positivity
  have hk : √(K2 K k) ≠ 0 := (Real.sqrt_pos.2 hk2).ne'
  have hsq := Real.sq_sqrt hp.le
  have hkq := Real.sq_sqrt hk2.le
  obtain ⟨⟨a, -, ha⟩, b, hb⟩ := C58_phase_false p K r k
  simp only [Fin.sum_univ_three, rogallo, kMag, kPlane, if_neg hs, if_neg hk]
  rw [ha, hb]
  set q := √(K2 K k)
  set m := √(K 0 k ^ 2 + K 1 k ^ 2)
  have e0 : ((a : ℂ) * q * K 1 k + b * I * K 0 k * K 2 k) / (q * m) = ((a * q * K 1 k / (q * m) : ℝ) : ℂ) + ((b * K 0 k * K 2 k / (q * m) : ℝ) : ℂ) * I := by
    push_cast; ring
  have e1 : ((b : ℂ) * I * K 1 k * K 2 k - a * q * K 0 k) / (q * m) = ((-(a * q * K 0 k / (q * m)) : ℝ) : ℂ) + ((b * K 1 k * K 2 k / (q * m) : ℝ) : ℂ) * I := by
    push_cast; ring
  have e2 : (b : ℂ) * I * m / q = ((0 : ℝ) : ℂ) + ((b * m / q : ℝ) : ℂ) * I := by push_cast; ring
  have e3 : (b : ℂ) * I = ((0 : ℝ) : ℂ) + ((b : ℝ) : ℂ) * I := by push_cast; ring
  rw [e0, e1, e2, e3, normSq_add_mul_I, normSq_add_mul_I, normSq_add_mul_I, normSq_add_mul_I, normSq_ofReal]
  field_simp
  have hm4 : m ^ 4 = (K 0 k ^ 2 + K 1 k ^ 2) ^ 2 := by rw [← hsq]; ring
  have hq2 : q ^ 2 = m ^ 2 + K 2 k ^ 2 := by rw [hkq, hsq, hK]
  have h01 : K 0 k ^ 2 = m ^ 2 - K 1 k ^ 2 := by rw [hsq]; ring
  rw [hq2]
  linear_combination (a ^ 2 * (m ^ 2 + K 2 k ^ 2) + b ^ 2 * K 2 k ^ 2) * (h01)

/-- **C58 fails** for the spectrum as well: with the draws `1/2` for `theta1`, `theta2` and 0 for `phi` the energy of a mode is
`exp(-2 pi)` times the prescribed `Ek/(4 pi k^2)`. -/
theorem C58_spectrum_false (p : Params) (K : Fin 3 → ι → ℝ) (k : ι) (h : K 0 k ≠ 0 ∨ K 1 k ≠ 0) (hE : 0 < Ek p K k) :
    ∑ i, normSq (rogallo p K (fun i _ => if i = 2 then 0 else 1 / 2) i k) = Real.exp (-(2 * Real.pi)) * (Ek p K k / (4 * Real.pi * K2 K k)) ∧
    ∑ i, normSq (rogallo p K (fun i _ => if i = 2 then 0 else 1 / 2) i k) ≠ Ek p K k / (4 * Real.pi * K2 K k) := by
  have hk2 : 0 < K2 K k := by
    have : K2 K k = K 0 k ^ 2 + K 1 k ^ 2 + K 2 k ^ 2 := by simp [K2, Fin.sum_univ_three]; ring
    rw [this]
    rcases h with h | h
    · have := sq_pos_of_ne_zero h; positivity
    · have := sq_pos_of_ne_zero h; positivity
  have h1 : ∑ i, normSq (rogallo p K (fun i _ => if i = 2 then 0 else 1 / 2) i k) =
      Real.exp (-(2 * Real.pi)) * (Ek p K k / (4 * Real.pi * K2 K k)) := by
    rw [C58_spectrum_exact p K _ k h, alpha, beta, C58_phase_exact, C58_phase_exact, (C58_angle_exact _).1, (C58_angle_exact _).2]
    have hx : (0 : Fin 3) ≠ 2 := by decide
    have hy : (1 : Fin 3) ≠ 2 := by decide
    simp only [if_neg hx, if_neg hy, if_true, mul_zero, Real.cosh_zero, Real.sinh_zero, ofReal_zero, zero_mul, map_zero, add_zero,
      ofReal_one, mul_one, map_mul, normSq_ofReal]
    rw [Real.mul_self_sqrt (by unfold kSq; rw [if_neg hk2.ne']; positivity), ← Real.exp_add, kSq, if_neg hk2.ne']
    rw [show -(2 * Real.pi * (1 / 2)) + -(2 * Real.pi * (1 / 2)) = -(2 * Real.pi) by ring]
    field_simp
  refine ⟨h1, ?_⟩
  rw [h1]
  intro heq
  have hpos : 0 < Ek p K k / (4 * Real.pi * K2 K k) := by positivity
  have : Real.exp (-(2 * Real.pi)) = 1 := by
    have := mul_right_cancel₀ hpos.ne' (heq.trans (one_mul _).symm)
    exact this
  rw [Real.exp_eq_one_iff] at this
  have := Real.pi_pos
  linarith

/-- The model spectrum of Lamorgese, Caughey and Pope (reference [2] of the demo): `k^2` up to `kf`, `k^(-5/3)` beyond. -/
noncomputable def modelSpectrum (kf k : ℝ) : ℝ := 9 / (11 * kf) * if k ≤ kf then (k / kf) ^ 2 else (k / kf) ^ (-5 / 3 : ℝ)

/-- C58: `Ek` is the square root of the model spectrum at `|k|`, for every wavenumber and every positive `Kf2`. -/
theorem C58_shape (p : Params) (hp : 0 < p.Kf2) (K : Fin 3 → ι → ℝ) (k : ι) : 0 ≤ Ek p K k ∧ Ek p K k ^ 2 = modelSpectrum p.Kf2 √(K2 K k) := by
  have hf : (0 : ℝ) < p.Kf2 := by exact_mod_cast hp
  have hK : 0 ≤ K2 K k := by unfold K2; exact Finset.sum_nonneg fun i _ => mul_self_nonneg _
  have hiff : √(K2 K k) ≤ p.Kf2 ↔ K2 K k ≤ (p.Kf2 : ℝ) ^ 2 := Real.sqrt_le_left hf.le
  by_cases h : K2 K k ≤ (p.Kf2 : ℝ) ^ 2
  · have hm : k2_mask p K k = 1 := if_pos h
    rw [Ek, hm, modelSpectrum, if_pos (hiff.2 h)]
    simp only [mul_one, sub_self, mul_zero, add_zero]
    refine ⟨Real.sqrt_nonneg _, ?_⟩
    rw [Real.sq_sqrt (by positivity), div_pow, Real.sq_sqrt hK]
    field_simp
  · have hm : k2_mask p K k = 0 := if_neg h
    rw [Ek, hm, modelSpectrum, if_neg (fun h' => h (hiff.1 h'))]
    simp only [mul_zero, sub_zero, mul_one, zero_add]
    have hs : √(K2 K k) ≠ 0 := by
      intro h0
      rw [Real.sqrt_eq_zero hK] at h0
      exact h (by rw [h0]; positivity)
    have hmag : kMag K k = √(K2 K k) := if_neg hs
    refine ⟨Real.sqrt_nonneg _, ?_⟩
    rw [hmag, Real.sq_sqrt (by positivity), div_div]

/-- At `|k| = 2 Kf2` the spectrum is that of the inertial range. -/
example (K : Fin 3 → Unit → ℝ) (hK : K2 K () = 36) : Ek ⟨3, 1, 1, 1⟩ K () ^ 2 = 9 / 33 * (2 : ℝ) ^ (-5 / 3 : ℝ) := by
  rw [(C58_shape _ (by norm_num) K ()).2, hK, show (36 : ℝ) = 6 ^ 2 by norm_num, Real.sqrt_sq (by norm_num), modelSpectrum]
  norm_num

/-- The Taylor Reynolds number `u' lambda / nu` of isotropic turbulence with kinetic energy `E` and dissipation `eps`: `u' ^ 2 = 2 E / 3`,
`lambda ^ 2 = 15 nu u' ^ 2 / eps`. -/
noncomputable def taylorReynolds (nu eps E : ℝ) : ℝ := √(2 * E / 3) * √(15 * nu * (2 * E / 3) / eps) / nu

/-- C56: the target energy is the one whose Taylor Reynolds number is `Re_lam` when the Kolmogorov wavenumber `(eps/nu^3)^(1/4)` is `kd`. -/
theorem C56_target (p : Params) (hnu : 0 < p.nu) (hkd : 0 < p.kd) (hre : 0 ≤ p.Re_lam) (eps : ℝ) (he : eps / p.nu ^ 3 = p.kd ^ 4) :
    taylorReynolds p.nu eps (target p) = p.Re_lam := by
  have he' : eps = p.nu ^ 3 * p.kd ^ 4 := by rw [← he]; field_simp
  have hs : (0 : ℝ) < √(20 / 3) := by positivity
  have hs2 : √(20 / 3 : ℝ) ^ 2 = 20 / 3 := Real.sq_sqrt (by norm_num)
  have ht : 0 ≤ target p := by unfold target; positivity
  rw [taylorReynolds, ← Real.sqrt_mul (by positivity), he']
  have : 2 * target p / 3 * (15 * p.nu * (2 * target p / 3) / (p.nu ^ 3 * p.kd ^ 4)) = (p.nu * p.Re_lam) ^ 2 := by
    unfold target
    field_simp
    rw [hs2]; ring
  rw [this, Real.sqrt_sq (by positivity)]
  field_simp

/-- The parameters of the demo, whose viscosity (line 306) makes the dissipation one. -/
example (kd : ℝ) (hkd : 0 < kd) : taylorReynolds (1 / kd ^ (4 / 3 : ℝ)) 1 (target ⟨3, 1 / kd ^ (4 / 3 : ℝ), kd, 84⟩) = 84 := by
  refine C56_target ⟨3, 1 / kd ^ (4 / 3 : ℝ), kd, 84⟩ (by positivity) hkd (by norm_num) 1 ?_
  have : (kd ^ (4 / 3 : ℝ)) ^ 3 = kd ^ 4 := by
    rw [← Real.rpow_natCast, ← Real.rpow_mul hkd.le, ← Real.rpow_natCast kd 4]; norm_num
  simp only [one_div, inv_pow, div_inv_eq_mul, one_mul, this]

/-! ## C59: the spectrum's shells -/

theorem digitize_eq (Nb : ℕ) (x : ℝ) (i : ℕ) : digitize Nb x = i + 1 → bins i < x := by
  intro h
  by_contra hx
  push Not at hx
  have : (Finset.range Nb).filter (fun j => bins j < x) ⊆ Finset.range i := by
    intro j hj
    rw [Finset.mem_filter] at hj
    rw [Finset.mem_range]
    by_contra hji
    push Not at hji
    have : bins i ≤ bins j := by unfold bins; gcongr
    linarith [hj.2]
  have := Finset.card_le_card this
  rw [Finset.card_range] at this
  unfold digitize at h
  omega

theorem digitize_iff (Nb : ℕ) (x : ℝ) (i : ℕ) (hi : i + 1 < Nb) : digitize Nb x = i + 1 ↔ bins i < x ∧ x ≤ bins (i + 1) := by
  constructor
  · intro h
    refine ⟨digitize_eq Nb x i h, ?_⟩
    by_contra hx
    push Not at hx
    have : Finset.range (i + 2) ⊆ (Finset.range Nb).filter (fun j => bins j < x) := by
      intro j hj
      rw [Finset.mem_range] at hj
      rw [Finset.mem_filter, Finset.mem_range]
      refine ⟨by omega, lt_of_le_of_lt ?_ hx⟩
      unfold bins
      have : (j : ℝ) ≤ ((i + 1 : ℕ) : ℝ) := by exact_mod_cast (by omega : j ≤ i + 1)
      linarith
    have := Finset.card_le_card this
    rw [Finset.card_range] at this
    unfold digitize at h
    omega
  · rintro ⟨h1, h2⟩
    unfold digitize
    have : (Finset.range Nb).filter (fun j => bins j < x) = Finset.range (i + 1) := by
      ext j
      rw [Finset.mem_filter, Finset.mem_range, Finset.mem_range]
      constructor
      · rintro ⟨-, hj⟩
        have : bins j < bins (i + 1) := lt_of_lt_of_le hj h2
        unfold bins at this
        have : (j : ℝ) < ((i + 1 : ℕ) : ℝ) := by linarith
        exact_mod_cast this
      · intro hj
        refine ⟨by omega, lt_of_le_of_lt ?_ h1⟩
        unfold bins
        have : (j : ℝ) ≤ (i : ℝ) := by exact_mod_cast (by omega : j ≤ i)
        linarith
    rw [this, Finset.card_range]

/-- **C59** Entry `i` of the spectrum samples exactly the modes with `i + 1/2 < |k| <= i + 3/2`. -/
theorem C59_shell (Nb : ℕ) (K : Fin 3 → ι → ℝ) (i : ℕ) (hi : i + 1 < Nb) (k : ι) :
    sampled Nb K i k ↔ (i : ℝ) + 1 / 2 < √(K2 K k) ∧ √(K2 K k) ≤ (i : ℝ) + 3 / 2 := by
  have h1 : sampled Nb K i k ↔ digitize Nb (√(K2 K k)) = i + 1 := by
    unfold sampled
    constructor
    · rintro ⟨h1, h2⟩
      simp only [bins] at h1 h2
      have h3 : (i : ℝ) < digitize Nb (√(K2 K k)) := by linarith
      have h4 : (digitize Nb (√(K2 K k)) : ℝ) < ((i + 2 : ℕ) : ℝ) := by push_cast at h2 ⊢; linarith
      have h3' : i < digitize Nb (√(K2 K k)) := by exact_mod_cast h3
      have h4' : digitize Nb (√(K2 K k)) < i + 2 := by exact_mod_cast h4
      omega
    · intro h
      rw [h]
      simp only [bins]
      push_cast
      constructor <;> linarith
  rw [h1, digitize_iff Nb _ i hi]
  simp only [bins]
  push_cast
  constructor <;> rintro ⟨h1, h2⟩ <;> constructor <;> linarith

/-- **C59** Every mode with `1/2 < |k| <= Nb - 1/2` is counted in exactly one entry. -/
theorem C59_partition (Nb : ℕ) (K : Fin 3 → ι → ℝ) (k : ι) (h1 : 1 / 2 < √(K2 K k)) (h2 : √(K2 K k) ≤ (Nb : ℝ) - 1 / 2) :
    ∃! i, i + 1 < Nb ∧ sampled Nb K i k := by
  set x := √(K2 K k) with hx
  have hc := Int.ceil_lt_add_one (x - 3 / 2)
  have hc' := Int.le_ceil (x - 3 / 2)
  have hnn : 0 ≤ ⌈x - 3 / 2⌉ := by
    have : (-1 : ℝ) < ⌈x - 3 / 2⌉ := by linarith
    have : (-1 : ℤ) < ⌈x - 3 / 2⌉ := by exact_mod_cast this
    omega
  obtain ⟨i, hi⟩ := Int.eq_ofNat_of_zero_le hnn
  rw [hi] at hc hc'
  push_cast at hc hc'
  have hiN : i + 1 < Nb := by
    have : ((i : ℕ) : ℝ) + 1 < Nb := by linarith
    exact_mod_cast this
  refine ⟨i, ⟨hiN, (C59_shell Nb K i hiN k).2 ⟨by linarith, by linarith⟩⟩, ?_⟩
  rintro j ⟨hj, hs⟩
  obtain ⟨h3, h4⟩ := (C59_shell Nb K j hj k).1 hs
  rw [← hx] at h3 h4
  have a1 : (j : ℝ) < i + 1 := by linarith
  have a2 : (i : ℝ) < j + 1 := by linarith
  have b1 : j < i + 1 := by exact_mod_cast a1
  have b2 : i < j + 1 := by exact_mod_cast a2
  omega

end SpectralDNS.Isotropic

import Mathlib.Analysis.ODE.ExistUnique
import Verif.Lemmas.Converge

/-!
# Global solutions of quadratic equations with an energy estimate
-/

namespace SpectralDNS

open Set

variable {E : Type*} [NormedAddCommGroup E] [NormedSpace ℝ E]

/-- `1` on the ball of radius `R`, `0` outside the ball of radius `R + 1`, Lipschitz. -/
noncomputable def cutoff (R : ℝ) (u : E) : ℝ := max 0 (min 1 (R + 1 - ‖u‖))

theorem cutoff_nonneg (R : ℝ) (u : E) : 0 ≤ cutoff R u := le_max_left _ _

theorem cutoff_le_one (R : ℝ) (u : E) : cutoff R u ≤ 1 := max_le zero_le_one (min_le_left _ _)

theorem cutoff_one {R : ℝ} {u : E} (h : ‖u‖ ≤ R) : cutoff R u = 1 := by
  rw [cutoff, min_eq_left (by linarith), max_eq_right zero_le_one]

theorem cutoff_zero {R : ℝ} {u : E} (h : R + 1 ≤ ‖u‖) : cutoff R u = 0 := by
  rw [cutoff, max_eq_left ((min_le_right _ _).trans (by linarith))]

theorem cutoff_lip (R : ℝ) (u w : E) : |cutoff R u - cutoff R w| ≤ ‖u - w‖ := by
  unfold cutoff
  have h1 := abs_max_sub_max_le_max 0 (min 1 (R + 1 - ‖u‖)) 0 (min 1 (R + 1 - ‖w‖))
  have h2 := abs_min_sub_min_le_max 1 (R + 1 - ‖u‖) 1 (R + 1 - ‖w‖)
  have h3 : |R + 1 - ‖u‖ - (R + 1 - ‖w‖)| ≤ ‖u - w‖ := by
    rw [show R + 1 - ‖u‖ - (R + 1 - ‖w‖) = ‖w‖ - ‖u‖ by ring, norm_sub_rev]
    exact abs_norm_sub_norm_le w u
  simp only [sub_self, abs_zero] at h1 h2
  have h4 := norm_nonneg (u - w)
  refine h1.trans (max_le h4 (h2.trans (max_le h4 h3)))

theorem cutoff_field {f : E → E} (hf : QuadField f) (R : ℝ) :
    ∃ M L : ℝ, 0 ≤ M ∧ 0 ≤ L ∧ (∀ u, ‖cutoff R u • f u‖ ≤ M) ∧ ∀ u w, ‖cutoff R u • f u - cutoff R w • f w‖ ≤ L * ‖u - w‖ := by
  obtain ⟨M, L, hM, hL, Hb, Hl⟩ := hf.bounds (R + 1)
  have hb : ∀ u, ‖cutoff R u • f u‖ ≤ M := by
    intro u
    rcases le_total ‖u‖ (R + 1) with h | h
    · rw [norm_smul, Real.norm_of_nonneg (cutoff_nonneg R u)]
      exact (mul_le_of_le_one_left (norm_nonneg _) (cutoff_le_one R u)).trans (Hb u h)
    · rw [cutoff_zero h, zero_smul, norm_zero]; exact hM
  -- one of the points outside the ball
  have hout : ∀ u w : E, R + 1 ≤ ‖w‖ → ‖cutoff R u • f u - cutoff R w • f w‖ ≤ M * ‖u - w‖ := by
    intro u w hw
    rw [cutoff_zero hw, zero_smul, sub_zero]
    rcases le_total ‖u‖ (R + 1) with h | h
    · have h1 := cutoff_lip R u w
      rw [cutoff_zero hw, sub_zero] at h1
      rw [norm_smul, Real.norm_eq_abs, mul_comm]
      exact mul_le_mul (Hb u h) h1 (abs_nonneg _) hM
    · rw [cutoff_zero h, zero_smul, norm_zero]; positivity
  refine ⟨M, M + L, hM, by positivity, hb, fun u w => ?_⟩
  have hp : 0 ≤ L * ‖u - w‖ := by positivity
  rw [add_mul]
  rcases le_total ‖w‖ (R + 1) with hw | hw
  · rcases le_total ‖u‖ (R + 1) with hu | hu
    · have e : cutoff R u • f u - cutoff R w • f w = (cutoff R u - cutoff R w) • f u + cutoff R w • (f u - f w) := by
        rw [sub_smul, smul_sub]; abel
      rw [e]
      refine (norm_add_le _ _).trans (add_le_add ?_ ?_)
      · rw [norm_smul, Real.norm_eq_abs, mul_comm]
        exact mul_le_mul (Hb u hu) (cutoff_lip R u w) (abs_nonneg _) hM
      · rw [norm_smul, Real.norm_of_nonneg (cutoff_nonneg R w)]
        exact (mul_le_of_le_one_left (norm_nonneg _) (cutoff_le_one R w)).trans (Hl u w hu hw)
    · have := hout w u hu
      rw [norm_sub_rev, norm_sub_rev w u] at this
      linarith
  · linarith [hout u w hw]

variable [CompleteSpace E]

/-- Existence on `[0, T]` under an energy estimate. -/
theorem exists_solvesOn {f : E → E} (hf : QuadField f) {V : E → ℝ} {dV : E → E →L[ℝ] ℝ} (hV : ∀ u, HasFDerivAt V (dV u) u)
    (hV0 : ∀ u, 0 ≤ V u) (hco : ∀ B, ∃ R, ∀ u, V u ≤ B → ‖u‖ ≤ R) {c : ℝ} (hc : 0 ≤ c) (hE : ∀ u, dV u (f u) ≤ c * (V u + 1))
    (u0 : E) {T : ℝ} (hT : 0 ≤ T) : ∃ y : ℝ → E, y 0 = u0 ∧ SolvesOn f T y := by
  obtain ⟨R, hR⟩ := hco ((V u0 + 1) * Real.exp (c * T))
  obtain ⟨M, L, hM, hL, Hb, Hl⟩ := cutoff_field hf R
  have hpl : IsPicardLindelof (fun _ u => cutoff R u • f u) (tmin := 0) (tmax := T) ⟨0, le_refl _, hT⟩ u0
      (M.toNNReal * T.toNNReal) 0 M.toNNReal L.toNNReal :=
    { lipschitzOnWith := fun t _ => LipschitzOnWith.of_dist_le_mul fun u _ w _ => by
        rw [dist_eq_norm, dist_eq_norm, Real.coe_toNNReal L hL]; exact Hl u w
      continuousOn := fun u _ => continuousOn_const
      norm_le := fun t _ u _ => by rw [Real.coe_toNNReal M hM]; exact Hb u
      mul_max_le := by
        simp [Real.coe_toNNReal M hM, Real.coe_toNNReal T hT, hT] }
  obtain ⟨y, hy0, hy⟩ := hpl.exists_eq_forall_mem_Icc_hasDerivWithinAt₀
  have hy0 : y 0 = u0 := hy0
  refine ⟨y, hy0, ?_⟩
  -- energy along the truncated equation
  have hW : ∀ t ∈ Icc 0 T, HasDerivWithinAt (fun t => (V (y t) + 1) * Real.exp (-(c * t)))
      (dV (y t) (cutoff R (y t) • f (y t)) * Real.exp (-(c * t)) + (V (y t) + 1) * (Real.exp (-(c * t)) * -c)) (Icc 0 T) t := by
    intro t ht
    have h1 : HasDerivWithinAt (fun t => V (y t)) (dV (y t) (cutoff R (y t) • f (y t))) (Icc 0 T) t :=
      (hV (y t)).comp_hasDerivWithinAt t (hy t ht)
    have h2 : HasDerivWithinAt (fun t => Real.exp (-(c * t))) (Real.exp (-(c * t)) * -c) (Icc 0 T) t := by
      have := (((hasDerivAt_id t).const_mul c).neg.exp).hasDerivWithinAt (s := Icc 0 T)
      simpa using this
    exact (h1.add_const 1).mul h2
  have hWle : ∀ t ∈ Icc 0 T, dV (y t) (cutoff R (y t) • f (y t)) * Real.exp (-(c * t)) + (V (y t) + 1) * (Real.exp (-(c * t)) * -c) ≤ 0 := by
    intro t _
    have h1 : dV (y t) (cutoff R (y t) • f (y t)) ≤ c * (V (y t) + 1) := by
      rw [map_smul, smul_eq_mul]
      have h2 := mul_le_mul_of_nonneg_left (hE (y t)) (cutoff_nonneg R (y t))
      have h3 : 0 ≤ c * (V (y t) + 1) := mul_nonneg hc (by linarith [hV0 (y t)])
      have h4 := mul_le_of_le_one_left h3 (cutoff_le_one R (y t))
      linarith
    have h5 := mul_le_mul_of_nonneg_right h1 (Real.exp_pos (-(c * t))).le
    nlinarith
  have hanti : AntitoneOn (fun t => (V (y t) + 1) * Real.exp (-(c * t))) (Icc 0 T) := by
    refine antitoneOn_of_deriv_nonpos (convex_Icc 0 T) (fun t ht => (hW t ht).continuousWithinAt) ?_ ?_
    · intro t ht
      rw [interior_Icc] at ht
      exact ((hW t (Ioo_subset_Icc_self ht)).hasDerivAt (Icc_mem_nhds ht.1 ht.2)).differentiableAt.differentiableWithinAt
    · intro t ht
      rw [interior_Icc] at ht
      rw [((hW t (Ioo_subset_Icc_self ht)).hasDerivAt (Icc_mem_nhds ht.1 ht.2)).deriv]
      exact hWle t (Ioo_subset_Icc_self ht)
  intro t ht
  have h1 := hanti ⟨le_refl _, hT⟩ ht ht.1
  simp only [hy0, mul_zero, neg_zero, Real.exp_zero, mul_one] at h1
  have h2 : V (y t) + 1 ≤ (V u0 + 1) * Real.exp (c * t) := by
    have := mul_le_mul_of_nonneg_right h1 (Real.exp_pos (c * t)).le
    rwa [mul_assoc, ← Real.exp_add, neg_add_cancel, Real.exp_zero, mul_one] at this
  have h3 : (V u0 + 1) * Real.exp (c * t) ≤ (V u0 + 1) * Real.exp (c * T) :=
    mul_le_mul_of_nonneg_left (Real.exp_le_exp.2 (mul_le_mul_of_nonneg_left ht.2 hc)) (by linarith [hV0 u0])
  have h4 : ‖y t‖ ≤ R := hR _ (by linarith)
  have h5 := hy t ht
  rwa [cutoff_one h4, one_smul] at h5

omit [CompleteSpace E] in
theorem SolvesOn.mono {f : E → E} {T T' : ℝ} (h : T' ≤ T) {y : ℝ → E} (hy : SolvesOn f T y) : SolvesOn f T' y :=
  fun t ht => (hy t ⟨ht.1, ht.2.trans h⟩).mono (Icc_subset_Icc_right h)

omit [CompleteSpace E] in
/-- Uniqueness. -/
theorem SolvesOn.unique {f : E → E} (hf : QuadField f) {T : ℝ} {y z : ℝ → E} (hy : SolvesOn f T y) (hz : SolvesOn f T z)
    (h0 : y 0 = z 0) : EqOn y z (Icc 0 T) := by
  obtain ⟨R, hR, hyR⟩ := hy.bound
  obtain ⟨R', hR', hzR⟩ := hz.bound
  obtain ⟨_, L, _, hL, _, Hl⟩ := hf.bounds (max R R')
  have hr : ∀ {w : ℝ → E}, SolvesOn f T w → ∀ t ∈ Ico 0 T, HasDerivWithinAt w (f (w t)) (Ici t) t := fun hw t ht =>
    (hw t (Ico_subset_Icc_self ht)).mono_of_mem_nhdsWithin (Icc_mem_nhdsGE_of_mem ht)
  refine ODE_solution_unique_of_mem_Icc_right (v := fun _ => f) (s := fun _ => {u | ‖u‖ ≤ max R R'}) (K := L.toNNReal)
    (fun t _ => LipschitzOnWith.of_dist_le_mul fun u hu w hw => ?_) (fun t ht => (hy t ht).continuousWithinAt) (hr hy)
    (fun t ht => (hyR t (Ico_subset_Icc_self ht)).trans (le_max_left _ _)) (fun t ht => (hz t ht).continuousWithinAt) (hr hz)
    (fun t ht => (hzR t (Ico_subset_Icc_self ht)).trans (le_max_right _ _)) h0
  rw [dist_eq_norm, dist_eq_norm, Real.coe_toNNReal L hL]
  exact Hl u w hu hw

omit [CompleteSpace E] in
theorem Solves.on {f : E → E} {y : ℝ → E} (hy : Solves f y) (T : ℝ) : SolvesOn f T y :=
  fun t ht => (hy t ht.1).mono Icc_subset_Ici_self

omit [CompleteSpace E] in
theorem Solves.unique {f : E → E} (hf : QuadField f) {y z : ℝ → E} (hy : Solves f y) (hz : Solves f z) (h0 : y 0 = z 0) (t : ℝ)
    (ht : 0 ≤ t) : y t = z t :=
  (hy.on t).unique hf (hz.on t) h0 ⟨ht, le_refl _⟩

/-- Global existence under an energy estimate. -/
theorem exists_solves {f : E → E} (hf : QuadField f) {V : E → ℝ} {dV : E → E →L[ℝ] ℝ} (hV : ∀ u, HasFDerivAt V (dV u) u)
    (hV0 : ∀ u, 0 ≤ V u) (hco : ∀ B, ∃ R, ∀ u, V u ≤ B → ‖u‖ ≤ R) {c : ℝ} (hc : 0 ≤ c) (hE : ∀ u, dV u (f u) ≤ c * (V u + 1))
    (u0 : E) : ∃ y : ℝ → E, y 0 = u0 ∧ Solves f y := by
  choose z hz0 hz using fun n : ℕ => exists_solvesOn hf hV hV0 hco hc hE u0 (Nat.cast_nonneg n : (0 : ℝ) ≤ n)
  have hag : ∀ (n m : ℕ) (t : ℝ), 0 ≤ t → t ≤ n → t ≤ m → z n t = z m t := fun n m t h0 h1 h2 =>
    ((hz n).mono h1).unique hf ((hz m).mono h2) ((hz0 n).trans (hz0 m).symm) ⟨h0, le_refl _⟩
  refine ⟨fun t => z ⌈t⌉₊ t, by simpa using hz0 0, fun t ht => ?_⟩
  set N : ℕ := ⌈t⌉₊ + 1 with hN
  have htN : t < N := (Nat.le_ceil t).trans_lt (by rw [hN]; push_cast; linarith)
  have h1 := hz N t ⟨ht, htN.le⟩
  have h2 : HasDerivWithinAt (z N) (f (z N t)) (Ici 0) t := by
    refine h1.mono_of_mem_nhdsWithin ?_
    rw [← Ici_inter_Iic]
    exact Filter.inter_mem self_mem_nhdsWithin (mem_nhdsWithin_of_mem_nhds (Iic_mem_nhds htN))
  have h3 : ∀ x ∈ Ici (0 : ℝ), x < N → z ⌈x⌉₊ x = z N x := fun x hx hxN => hag _ _ x hx (Nat.le_ceil x) hxN.le
  show HasDerivWithinAt (fun t => z ⌈t⌉₊ t) (f (z ⌈t⌉₊ t)) (Ici 0) t
  rw [h3 t ht htN]
  refine h2.congr_of_eventuallyEq ?_ (h3 t ht htN)
  filter_upwards [self_mem_nhdsWithin, mem_nhdsWithin_of_mem_nhds (Iio_mem_nhds htN)] with x hx hxN
  exact h3 x hx hxN

end SpectralDNS

import Mathlib.LinearAlgebra.Matrix.AbsoluteValue
import Mathlib.Analysis.Matrix.PosDef
import Mathlib.LinearAlgebra.Matrix.NonsingularInverse
import Mathlib.Topology.Instances.Matrix
import Mathlib.Analysis.SpecificLimits.Basic
import Mathlib.Analysis.Complex.Basic

/-!
# Linear iterations with growing determinant
-/

namespace SpectralDNS.Growth

open Matrix Filter Topology

/-- If the determinant of an iteration has modulus larger than one, the iterates of some unit vector are unbounded. -/
theorem unbounded_orbit {a : ℕ} (P R : Matrix (Fin a) (Fin a) ℂ) (hP : P.det ≠ 0) (h : ‖P.det‖ < ‖R.det‖) (X : ℕ → Matrix (Fin a) (Fin a) ℂ)
    (h0 : X 0 = 1) (hs : ∀ m, P * X (m + 1) = R * X m) : ∃ j, ∀ C : ℝ, ∃ m i, C < ‖X m i j‖ := by
  by_contra hcon
  push Not at hcon
  choose C hC using hcon
  have hK : ∀ m i j, ‖X m i j‖ ≤ ∑ j, |C j| := fun m i j =>
    ((hC j m i).trans (le_abs_self _)).trans (Finset.single_le_sum (f := fun j => |C j|) (fun _ _ => abs_nonneg _) (Finset.mem_univ j))
  have hp : 0 < ‖P.det‖ := norm_pos_iff.2 hP
  have hdet : ∀ m, ‖(X m).det‖ = (‖R.det‖ / ‖P.det‖) ^ m := fun m => by
    induction m with
    | zero => simp [h0]
    | succ m ih =>
      have h1 := congrArg (fun M => ‖det M‖) (hs m)
      simp only [det_mul, norm_mul] at h1
      rw [pow_succ, ← ih, mul_div_assoc', eq_div_iff hp.ne']
      linarith
  have hb : ∀ m, (‖R.det‖ / ‖P.det‖) ^ m ≤ (Fintype.card (Fin a)).factorial • (∑ j, |C j|) ^ Fintype.card (Fin a) := fun m => by
    rw [← hdet]
    exact det_le (abv := (⟨⟨norm, norm_mul⟩, norm_nonneg, fun _ => norm_eq_zero, norm_add_le⟩ : AbsoluteValue ℂ ℝ)) (hK m)
  obtain ⟨m, hm⟩ := ((tendsto_pow_atTop_atTop_of_one_lt ((one_lt_div hp).2 h)).eventually_gt_atTop
    ((Fintype.card (Fin a)).factorial • (∑ j, |C j|) ^ Fintype.card (Fin a))).exists
  exact absurd (hb m) (not_le.2 hm)

/-- Enlarging a diagonal entry of a positive definite matrix enlarges its determinant, and so it does after small changes. -/
theorem det_gap {a : ℕ} (M A : Matrix (Fin a) (Fin a) ℝ) (hM : M.PosDef) (i : Fin a) (t : ℝ) (ht : 0 < t) :
    ∃ e0 : ℝ, 0 < e0 ∧ ∀ e, 0 < e → e < e0 → 0 < (M - e • A).det ∧ (M - e • A).det < (M + t • Matrix.single i i 1 + e • A).det := by
  have h1 : M.det < (M + t • Matrix.single i i 1).det := by
    have e1 : M + t • Matrix.single i i 1 = M.updateRow i (M i + t • Pi.single i 1) := by
      ext k l
      by_cases hk : k = i
      · subst hk
        by_cases hl : l = k
        · subst hl; simp
        · simp [hl, Matrix.single, Ne.symm hl]
      · simp [hk, Matrix.single, Ne.symm hk]
    rw [e1, det_updateRow_add, updateRow_eq_self, det_updateRow_smul, ← adjugate_apply]
    have h2 : M.adjugate = M.det • M⁻¹ := by
      rw [Matrix.inv_def, smul_smul, Ring.mul_inverse_cancel _ hM.det_pos.ne'.isUnit, one_smul]
    rw [h2, Matrix.smul_apply, smul_eq_mul]
    have := hM.inv.diag_pos (i := i)
    have := hM.det_pos
    have : 0 < t * (M.det * M⁻¹ i i) := by positivity
    linarith
  have hf : Continuous fun e : ℝ => (M - e • A).det := (continuous_const.sub (continuous_id.smul continuous_const)).matrix_det
  have hg : Continuous fun e : ℝ => (M + t • Matrix.single i i 1 + e • A).det := (continuous_const.add (continuous_id.smul continuous_const)).matrix_det
  have e1 : ∀ᶠ e in 𝓝 (0 : ℝ), 0 < (M - e • A).det := (hf.tendsto 0).eventually (lt_mem_nhds (by simpa using hM.det_pos))
  have e2 : ∀ᶠ e in 𝓝 (0 : ℝ), (M - e • A).det < (M + t • Matrix.single i i 1 + e • A).det :=
    (hf.tendsto 0).eventually_lt (hg.tendsto 0) (by simpa using h1)
  obtain ⟨e0, h0, hball⟩ := Metric.eventually_nhds_iff.1 (e1.and e2)
  refine ⟨e0, h0, fun e he he' => hball ?_⟩
  simpa [Real.dist_eq, abs_of_pos he] using he'

end SpectralDNS.Growth

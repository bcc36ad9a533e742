import Verif.Model.Integrators
import Verif.Spec.RungeKutta
import Mathlib.Tactic.Linarith
import Mathlib.Tactic.NormNum
import Mathlib.Tactic.Positivity

/-! Helper lemmas about the step-size controller. -/

namespace SpectralDNS

/-- An error estimate that is a norm: never a negative number. -/
def PyF.Nonneg : PyF → Prop
  | .fin x => 0 ≤ x
  | _ => True

theorem pyMax_fin (a b : ℝ) : PyF.pyMax (.fin a) (.fin b) = .fin (max a b) := by
  by_cases h : a < b
  · simp [PyF.pyMax, PyF.Gt, h, max_eq_right h.le]
  · simp [PyF.pyMax, PyF.Gt, h, max_eq_left (not_lt.1 h)]

theorem pyMin_fin (a b : ℝ) : PyF.pyMin (.fin a) (.fin b) = .fin (min a b) := by
  by_cases h : b < a
  · simp [PyF.pyMin, PyF.Gt, h, min_eq_right h.le]
  · simp [PyF.pyMin, PyF.Gt, h, min_eq_left (not_lt.1 h)]

/-- The controller never produces `inf` or `nan`, and agrees with the textbook clamp. -/
theorem stepFactor_eq (facmax : ℝ) (hf : 1 / 100 ≤ facmax) (p : ℕ) (e : PyF) (he : e.Nonneg) :
    stepFactor facmax p e = .fin (Spec.factor facmax p e) := by
  have hp : (1 : ℝ) / ((p : ℝ) + 1) ≠ 0 := by positivity
  have hmin : facmin = 1 / 100 := by norm_num [facmin]
  have hfac : fac = 4 / 5 := by norm_num [fac]
  unfold stepFactor
  cases e with
  | fin x =>
    have hx : 0 ≤ x := he
    by_cases h0 : x = 0
    · subst h0
      simp [PyF.recip, PyF.pow, PyF.scale, PyF.pyMax, PyF.pyMin, PyF.Gt, Spec.factor]
    · simp only [PyF.recip, h0, if_false, PyF.pow, PyF.scale, pyMax_fin, pyMin_fin, Spec.factor]
      rw [hmin, hfac, one_div x, Real.inv_rpow hx, Real.rpow_neg hx]
  | inf =>
    simp only [PyF.recip, PyF.pow, PyF.scale, pyMax_fin, pyMin_fin, Spec.factor]
    rw [Real.zero_rpow hp, mul_zero, hmin, max_eq_left (by norm_num), min_eq_right hf]
  | nan =>
    have : PyF.pyMax (.fin facmin) .nan = .fin facmin := by simp [PyF.pyMax, PyF.Gt]
    simp only [PyF.recip, PyF.pow, PyF.scale, Spec.factor]
    rw [this, pyMin_fin, hmin, min_eq_right hf]

theorem stepFactor_finite (facmax : ℝ) (hf : 1 / 100 ≤ facmax) (p : ℕ) (e : PyF) (he : e.Nonneg) :
    ∃ x, stepFactor facmax p e = .fin x := ⟨_, stepFactor_eq facmax hf p e he⟩

theorem Spec.factor_le (facmax : ℝ) (hf : 1 / 100 ≤ facmax) (p : ℕ) (e : PyF) : Spec.factor facmax p e ≤ facmax := by
  cases e with
  | fin x =>
    simp only [Spec.factor]
    split
    · exact le_rfl
    · exact min_le_left _ _
  | inf => simpa [Spec.factor] using hf
  | nan => simpa [Spec.factor] using hf

theorem Spec.le_factor (facmax : ℝ) (hf : 1 / 100 ≤ facmax) (p : ℕ) (e : PyF) : 1 / 100 ≤ Spec.factor facmax p e := by
  cases e with
  | fin x =>
    simp only [Spec.factor]
    split
    · exact hf
    · exact le_min hf (le_max_left _ _)
  | inf => exact le_rfl
  | nan => exact le_rfl

/-- A rejected trial (`est > 1`) shrinks the step to at most 0.8 of its size. -/
theorem Spec.factor_reject (facmax : ℝ) (p : ℕ) (e : PyF) (h : e = .inf ∨ ∃ x, e = .fin x ∧ 1 < x) :
    Spec.factor facmax p e ≤ 4 / 5 := by
  rcases h with h | ⟨x, h, hx⟩
  · subst h; simp only [Spec.factor]; norm_num
  · subst h
    have hx0 : x ≠ 0 := by linarith
    simp only [Spec.factor, if_neg hx0]
    refine le_trans (min_le_right _ _) (max_le (by norm_num) ?_)
    have : x ^ (-(1 / ((p : ℝ) + 1))) ≤ 1 := by
      apply Real.rpow_le_one_of_one_le_of_nonpos hx.le
      have : (0 : ℝ) < 1 / ((p : ℝ) + 1) := by positivity
      linarith
    linarith

theorem gt_one_iff (e : PyF) : PyF.Gt e (.fin 1) ↔ (e = .inf ∨ ∃ x, e = .fin x ∧ 1 < x) := by
  cases e with
  | fin x => simp [PyF.Gt]
  | inf => simp [PyF.Gt]
  | nan => simp [PyF.Gt]

theorem not_gt_one_iff (e : PyF) : ¬ PyF.Gt e (.fin 1) ↔ ((∀ x, e = .fin x → x ≤ 1) ∧ e ≠ .inf) := by
  cases e with
  | fin x => simp [PyF.Gt]
  | inf => simp [PyF.Gt]
  | nan => simp [PyF.Gt]

end SpectralDNS

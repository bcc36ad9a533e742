import Verif.Model.ErrorEstimate
import Verif.Lemmas.Controller

/-!
# C26, C57: the adaptive step size on several MPI ranks
-/

namespace SpectralDNS

variable {ι : Type*} [Fintype ι] {R nc : ℕ}

namespace Spec

/-- Scaled root-sum-square error of component `k` over all modes (no ranks involved). -/
noncomputable def compNorm (aTOL rTOL : ℝ) (err u v : ι → ℂ) : ℝ :=
  Real.sqrt (∑ i, (‖err i‖ / |aTOL + max ‖u i‖ ‖v i‖ * rTOL|) ^ 2)

/-- Largest component norm. -/
noncomputable def maxNorm (aTOL rTOL : ℝ) (d : ErrData ι nc) : ℝ :=
  Finset.univ.sup' Finset.univ_nonempty (fun k => compNorm aTOL rTOL (d.err k) (d.u0 k) (d.new k))

end Spec

theorem sum_localSum (aTOL rTOL : ℝ) (owner : ι → Fin (R + 1)) (d : ErrData ι nc) (k : Fin (nc + 1)) :
    ∑ r, localSum aTOL rTOL owner d k r =
      ∑ i, (‖d.err k i‖ / |aTOL + max ‖d.u0 k i‖ ‖d.new k i‖ * rTOL|) ^ 2 := by
  classical
  have : ∀ i, ‖d.err k i / (d.sc aTOL rTOL k i : ℂ)‖ ^ 2 =
      (‖d.err k i‖ / |aTOL + max ‖d.u0 k i‖ ‖d.new k i‖ * rTOL|) ^ 2 := by
    intro i
    rw [norm_div, Complex.norm_real, Real.norm_eq_abs]
    rfl
  simp only [localSum, this]
  rw [← Finset.sum_fiberwise (s := Finset.univ) (g := owner)]
  refine Finset.sum_congr rfl fun r _ => ?_
  rw [Finset.sum_subtype (p := fun i => owner i = r)]
  simp

/-- C26.  For every number of ranks and every distribution of the modes, every rank uses the same estimate; it is the
norm of the global error (which does not depend on the distribution) over the square root of the number of modes stored
on rank 0. -/
theorem C26_estimate (aTOL rTOL : ℝ) (owner : ι → Fin (R + 1)) (d : ErrData ι nc) (r : Fin (R + 1)) :
    rankEst aTOL rTOL owner d r = .fin (Spec.maxNorm aTOL rTOL d / Real.sqrt (localSize owner 0)) := by
  simp only [rankEst, mpiBcast, mpiReduce, if_true, Option.getD_some, sum_localSum]
  rfl

/-- C26.  Whole retry loop: started with equal sizes, all ranks take the same decisions (there is never a deadlock) and
leave the loop with the same next and taken size. -/
theorem C26_no_deadlock (aTOL rTOL : ℝ) (owner : ι → Fin (R + 1)) (p : ℕ)
    (data : ℕ → (Fin (R + 1) → ℝ) → ErrData ι nc) (fuel : ℕ) :
    ∀ (n : ℕ) (facmax dt : ℝ) (o : SpmdOutcome R),
      spmdLoop aTOL rTOL owner p data fuel n (fun _ => facmax) (fun _ => dt) = some o →
      ∃ next took : ℝ, o = .done (fun _ => next) (fun _ => took) := by
  induction fuel with
  | zero => intro _ _ _ _ h; simp [spmdLoop] at h
  | succ f ih =>
    intro n facmax dt o h
    simp only [spmdLoop] at h
    rw [funext (C26_estimate aTOL rTOL owner (data n fun _ => dt))] at h
    by_cases hg : PyF.Gt (.fin (Spec.maxNorm aTOL rTOL (data n fun _ => dt) / Real.sqrt (localSize owner 0))) (.fin 1)
    · rw [if_pos (fun _ => hg)] at h
      exact ih _ _ _ _ h
    · rw [if_neg (fun hc => hg (hc 0)), if_pos (fun _ => hg)] at h
      simp only [Option.some.injEq] at h
      exact ⟨_, _, h.symm⟩

theorem maxNorm_nonneg (aTOL rTOL : ℝ) (d : ErrData ι nc) : 0 ≤ Spec.maxNorm aTOL rTOL d :=
  le_trans (Real.sqrt_nonneg _) (Finset.le_sup' (f := fun k => Spec.compNorm aTOL rTOL (d.err k) (d.u0 k) (d.new k)) (Finset.mem_univ 0))

/-- C26.  The trials of the loop on all ranks are those of one process with the global estimate `e`: every trial but the last has an estimate above 1, the last
has not, each size is the previous one times the factor of the controller, which may not exceed `facmax` at the first trial nor 1 after a rejection; all
ranks leave with the last size tried and the size proposed after it. -/
theorem C26_trials (aTOL rTOL : ℝ) (owner : ι → Fin (R + 1)) (p : ℕ) (data : ℕ → (Fin (R + 1) → ℝ) → ErrData ι nc) (fuel : ℕ) :
    ∀ (n : ℕ) (facmax dt : ℝ), 1 / 100 ≤ facmax → ∀ o : SpmdOutcome R,
      spmdLoop aTOL rTOL owner p data fuel n (fun _ => facmax) (fun _ => dt) = some o →
      let e := fun i x => Spec.maxNorm aTOL rTOL (data (n + i) fun _ => x) / Real.sqrt (localSize owner 0)
      ∃ (m : ℕ) (d : ℕ → ℝ), d 0 = dt ∧ o = .done (fun _ => d (m + 1)) (fun _ => d m) ∧ (∀ i < m, 1 < e i (d i)) ∧ e m (d m) ≤ 1 ∧
        ∀ i ≤ m, d (i + 1) = d i * Spec.factor (if i = 0 then facmax else 1) p (.fin (e i (d i))) := by
  induction fuel with
  | zero => intro _ _ _ _ _ h; simp [spmdLoop] at h
  | succ f ih =>
    intro n facmax dt hfm o h e
    simp only [spmdLoop] at h
    rw [show rankEst aTOL rTOL owner (data n fun _ => dt) = fun _ => .fin (e 0 dt) from funext (C26_estimate aTOL rTOL owner (data n fun _ => dt))] at h
    have hnn : (PyF.fin (e 0 dt)).Nonneg := div_nonneg (maxNorm_nonneg _ _ _) (Real.sqrt_nonneg _)
    have hfac : (stepFactor facmax p (.fin (e 0 dt))).toReal = Spec.factor facmax p (.fin (e 0 dt)) := by
      rw [stepFactor_eq facmax hfm p _ hnn]; rfl
    by_cases hg : PyF.Gt (.fin (e 0 dt)) (.fin 1)
    · rw [if_pos (fun _ => hg)] at h
      obtain ⟨m, d, h1, h2, h3, h4, h5⟩ := ih (n + 1) 1 _ (by norm_num) o h
      have he : ∀ i x, Spec.maxNorm aTOL rTOL (data (n + 1 + i) fun _ => x) / Real.sqrt (localSize owner 0) = e (i + 1) x := fun i x => by
        simp only [e, show n + 1 + i = n + (i + 1) by omega]
      simp only [he] at h3 h4 h5
      refine ⟨m + 1, fun i => if i = 0 then dt else d (i - 1), rfl, by simpa using h2, fun i hi => ?_, by simpa using h4, fun i hi => ?_⟩
      · rcases i with _ | i
        · exact hg
        · simpa using h3 i (by omega)
      · rcases i with _ | i
        · simp only [Nat.zero_add, if_true, one_ne_zero, if_false, Nat.sub_self]
          rw [h1, ← hfac]
        · have := h5 i (by omega)
          simp only [Nat.add_eq_zero_iff, one_ne_zero, and_false, if_false, Nat.add_sub_cancel]
          rw [this]
          split_ifs <;> rfl
    · rw [if_neg (fun hc => hg (hc 0)), if_pos (fun _ => hg)] at h
      simp only [Option.some.injEq] at h
      refine ⟨0, fun i => if i = 0 then dt else dt * Spec.factor facmax p (.fin (e 0 dt)), rfl, ?_, fun i hi => absurd hi (by omega), ?_, fun i hi => ?_⟩
      · rw [← h]
        simp only [Nat.zero_add, one_ne_zero, if_false, if_true]
        rw [← hfac]
      · exact not_lt.1 hg
      · obtain rfl : i = 0 := by omega
        simp

/-- Concrete case: three ranks, five modes distributed unevenly; the loop ends without deadlock. -/
example : ∃ o, spmdLoop (ι := Fin 5) (R := 2) (nc := 0) 1 0 (fun i => if i = 0 then 1 else if i = 1 then 0 else 2) 4
    (fun _ _ => ⟨fun _ _ => 0, fun _ _ => 1, fun _ _ => 1⟩) 1 0 (fun _ => 2) (fun _ => 1) = some o := by
  simp only [spmdLoop]
  rw [funext (C26_estimate 1 0 _ _)]
  have h0 : Spec.maxNorm (ι := Fin 5) (nc := 0) 1 0 ⟨fun _ _ => 0, fun _ _ => 1, fun _ _ => 1⟩ = 0 := by
    simp [Spec.maxNorm, Spec.compNorm]
  rw [h0, zero_div]
  have hng : ¬ PyF.Gt (.fin 0) (.fin 1) := by simp [PyF.Gt]
  rw [if_neg (fun h => hng (h 0)), if_pos (fun _ => hng)]
  exact ⟨_, rfl⟩

/-! ## C57 -/

/-- C57 is false: the estimate depends on the number of ranks.  Two modes with error 1 (tolerance 1): on one rank the estimate is 1
(accepted), on two ranks it is √2 (rejected). -/
theorem C57_rank_dependent_false :
    ¬ ∀ (R : ℕ) (owner : Fin 2 → Fin (R + 1)) (d : ErrData (Fin 2) 0), 0 < localSize owner 0 →
      (PyF.Gt (rankEst 1 0 owner d 0) (.fin 1) ↔ PyF.Gt (rankEst 1 0 (fun _ => (0 : Fin 1)) d 0) (.fin 1)) := by
  intro h
  have hd : Spec.maxNorm (ι := Fin 2) (nc := 0) 1 0 ⟨fun _ _ => 1, fun _ _ => 0, fun _ _ => 0⟩ = Real.sqrt 2 := by
    simp [Spec.maxNorm, Spec.compNorm]
  have h1 : localSize (R := 1) (fun i : Fin 2 => (i : Fin 2)) 0 = 1 := by simp [localSize]
  have h2 : localSize (R := 0) (fun _ : Fin 2 => (0 : Fin 1)) 0 = 2 := by simp [localSize]
  have := h 1 (fun i => i) ⟨fun _ _ => 1, fun _ _ => 0, fun _ _ => 0⟩ (by rw [h1]; exact Nat.one_pos)
  rw [C26_estimate, C26_estimate, hd, h1, h2] at this
  simp [PyF.Gt] at this

/-- C57, the part that holds (missing: independence of the number of ranks): the estimate on any distribution is the serial one times
`sqrt (global size / size on rank 0)`; so it is independent of how the modes are distributed as long as rank 0 keeps the same number of modes,
and never smaller than the serial estimate. -/
theorem C57_scaling_partial (aTOL rTOL : ℝ) (owner : ι → Fin (R + 1)) (d : ErrData ι nc) (r : Fin (R + 1))
    (h0 : 0 < localSize owner 0) :
    ∃ e : ℝ, rankEst (R := 0) aTOL rTOL (fun _ => 0) d 0 = .fin e ∧
      rankEst aTOL rTOL owner d r = .fin (e * Real.sqrt (Fintype.card ι / localSize owner 0)) ∧
      e ≤ e * Real.sqrt (Fintype.card ι / localSize owner 0) := by
  have hs : localSize (R := 0) (fun _ : ι => (0 : Fin 1)) 0 = Fintype.card ι := by
    simp [localSize]
  have hle : localSize owner 0 ≤ Fintype.card ι := Fintype.card_subtype_le _
  have hpos : (0 : ℝ) < localSize owner 0 := by exact_mod_cast h0
  have hcard : (0 : ℝ) < Fintype.card ι := lt_of_lt_of_le hpos (by exact_mod_cast hle)
  have hsq : Real.sqrt (Fintype.card ι) ≠ 0 := (Real.sqrt_pos.2 hcard).ne'
  have hnn : 0 ≤ Spec.maxNorm aTOL rTOL d := by
    refine le_trans (Real.sqrt_nonneg _) (Finset.le_sup' (f := fun k => Spec.compNorm aTOL rTOL (d.err k) (d.u0 k) (d.new k))
      (Finset.mem_univ 0))
  refine ⟨Spec.maxNorm aTOL rTOL d / Real.sqrt (Fintype.card ι), ?_, ?_, ?_⟩
  · rw [C26_estimate, hs]
  · rw [C26_estimate, Real.sqrt_div hcard.le, div_mul_div_cancel₀ hsq]
  · refine le_mul_of_one_le_right (div_nonneg hnn (Real.sqrt_nonneg _)) ?_
    rw [Real.one_le_sqrt, one_le_div hpos]
    exact_mod_cast hle

/-- The hypothesis `0 < localSize` is met by every distribution that gives rank 0 a mode. -/
example : 0 < localSize (R := 2) (fun i : Fin 5 => if i = 0 then 1 else if i = 1 then 0 else 2) 0 := by
  simp [localSize]
  decide

end SpectralDNS

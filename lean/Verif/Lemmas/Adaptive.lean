import Verif.Lemmas.Integrators
import Verif.Lemmas.Controller

/-! Helper lemmas about the retry loop of `adaptiveRK`. -/

namespace SpectralDNS

variable {V : Type*} [AddCommGroup V] [Module ℝ V]

/-- The first-same-as-last property of a tableau. -/
structure Tableau.FSAL (T : Tableau) : Prop where
  pos : 0 < T.s
  last : ∀ j, j < T.s - 1 → T.A (T.s - 1) j = T.b j
  zero : T.b (T.s - 1) = 0

/-- What the ring buffer must contain before a call for the first stage to be valid. -/
def FirstStageValid (f : V → V) (T : Tableau) (tstep : ℕ) (st : RKArrays V) : Prop :=
  tstep = 0 ∨ st.fY (slot T.s 0 (st.offset - 1)) = f st.u0

/-- One trial from a valid buffer. -/
theorem trial_eq (F : V → V → V) (f : V → V) (hF : ∀ r u, F r u = f u) (T : Tableau) (hT : 0 < T.s)
    (est : V → V → V → PyF) (tstep : ℕ) (dt : ℝ) (st : RKArrays V) (hv : FirstStageValid f T tstep st) :
    let t := rkTrial F T true est tstep dt st
    (∀ j < T.s, t.fY (slot T.s j t.offset) = Spec.stages T.A f dt st.u0 j) ∧
    t.new = Spec.rkNew T.s T.A T.b f dt st.u0 ∧
    t.est = est (Spec.rkErr T.s T.A T.b T.bhat f dt st.u0) st.u0 (Spec.rkNew T.s T.A T.b f dt st.u0) := by
  intro t
  have h0 : recomputed true tstep 0 ∨
      (st.fY, st.rhs).1 (slot T.s 0 ((st.offset - 1) % (T.s : ℤ))) = f st.u0 := by
    rcases hv with h | h
    · exact Or.inl (Or.inr (Or.inl h))
    · refine Or.inr ?_
      show st.fY (slot T.s 0 ((st.offset - 1) % (T.s : ℤ))) = _
      rw [slot_emod]
      exact h
  have h1 := rkStages_eq F f hF T true tstep dt _ st.u0 (st.fY, st.rhs) h0
  have h2 := rkNew_eq f T hT dt _ st.u0 _ h1
  have h3 := rkErr_eq f T hT dt _ st.u0 _ h1
  refine ⟨h1, h2, ?_⟩
  rw [← h2, ← h3]
  rfl

theorem trial_valid (F : V → V → V) (f : V → V) (hF : ∀ r u, F r u = f u) (T : Tableau) (hT : 0 < T.s)
    (est : V → V → V → PyF) (tstep : ℕ) (dt : ℝ) (st : RKArrays V) (hv : FirstStageValid f T tstep st) :
    let t := rkTrial F T true est tstep dt st
    FirstStageValid f T tstep ⟨st.u0, t.fY, t.rhs, t.offset + 1⟩ := by
  intro t
  refine Or.inr ?_
  show t.fY (slot T.s 0 (t.offset + 1 - 1)) = f st.u0
  rw [add_sub_cancel_right, (trial_eq F f hF T hT est tstep dt st hv).1 0 hT, stages_eq]
  simp

theorem trial_next (F : V → V → V) (f : V → V) (hF : ∀ r u, F r u = f u) (T : Tableau) (hT : T.FSAL)
    (est : V → V → V → PyF) (tstep : ℕ) (dt : ℝ) (st : RKArrays V) (hv : FirstStageValid f T tstep st) :
    let t := rkTrial F T true est tstep dt st
    t.fY (slot T.s 0 (t.offset - 1)) = f t.new := by
  intro t
  obtain ⟨h1, h2, -⟩ := trial_eq F f hF T hT.pos est tstep dt st hv
  rw [← slot_last hT.pos, h1 _ (by have := hT.pos; omega), last_stage_eq f T hT.pos hT.last hT.zero, h2]

/-- Refinement of the adaptive retry loop to the textbook method. -/
theorem adaptiveLoop_refines (F : V → V → V) (f : V → V) (hF : ∀ r u, F r u = f u) (T : Tableau) (hT : T.FSAL)
    (p : ℕ) (est : V → V → V → PyF) (hest : ∀ a b c, (est a b c).Nonneg) (tstep fuel : ℕ) :
    ∀ (facmax dt : ℝ) (st : RKArrays V) (rej : List ℝ) (res : RKResult V), 1 / 100 ≤ facmax →
      FirstStageValid f T tstep st →
      adaptiveLoop F T p true true est tstep fuel facmax dt st rej = some res →
      ∃ rej', res.rejected = rej ++ rej' ∧
        Spec.Adapt T.s T.A T.b T.bhat f p est facmax dt st.u0 rej' (res.arrays.u0, res.dt, res.took, res.est) ∧
        res.arrays.fY (slot T.s 0 (res.arrays.offset - 1)) = f res.arrays.u0 := by
  induction fuel with
  | zero => intro _ _ _ _ _ _ _ h; simp [adaptiveLoop] at h
  | succ n ih =>
    intro facmax dt st rej res hf hv h
    obtain ⟨h1, h2, h3⟩ := trial_eq F f hF T hT.pos est tstep dt st hv
    have hval := trial_valid F f hF T hT.pos est tstep dt st hv
    have hnext := trial_next F f hF T hT est tstep dt st hv
    simp only [adaptiveLoop, if_true] at h
    set t := rkTrial F T true est tstep dt st with ht
    have hfac : (stepFactor facmax p t.est).toReal = Spec.factor facmax p t.est := by
      rw [stepFactor_eq facmax hf p t.est (h3 ▸ hest _ _ _)]; rfl
    rw [hfac] at h
    by_cases hgt : PyF.Gt t.est (.fin 1)
    · rw [if_pos hgt] at h
      obtain ⟨rej', hrej, had, hlast⟩ := ih 1 _ _ _ res (by norm_num) hval h
      refine ⟨dt :: rej', ?_, ?_, hlast⟩
      · rw [hrej, List.append_assoc]; rfl
      · exact Spec.Adapt.reject facmax dt st.u0 t.est rej' _ h3 ((gt_one_iff _).1 hgt) had
    · rw [if_neg hgt] at h
      obtain ⟨hle, hinf⟩ := (not_gt_one_iff _).1 hgt
      simp only [Option.some.injEq] at h
      subst h
      refine ⟨[], by simp, ?_, hnext⟩
      simp only
      rw [h2]
      exact Spec.Adapt.accept facmax dt st.u0 t.est h3 hle hinf

/-- Completeness: the model reproduces every textbook run when given enough fuel. -/
theorem adaptiveLoop_complete (F : V → V → V) (f : V → V) (hF : ∀ r u, F r u = f u) (T : Tableau) (hT : T.FSAL)
    (p : ℕ) (est : V → V → V → PyF) (hest : ∀ a b c, (est a b c).Nonneg) (tstep : ℕ) {facmax dt : ℝ} {u : V}
    {rej' : List ℝ} {out : V × ℝ × ℝ × PyF}
    (had : Spec.Adapt T.s T.A T.b T.bhat f p est facmax dt u rej' out) :
    ∀ (st : RKArrays V) (rej : List ℝ) (fuel : ℕ), 1 / 100 ≤ facmax → st.u0 = u →
      FirstStageValid f T tstep st → rej'.length < fuel →
      ∃ res, adaptiveLoop F T p true true est tstep fuel facmax dt st rej = some res ∧
        (res.arrays.u0, res.dt, res.took, res.est) = out ∧ res.rejected = rej ++ rej' := by
  induction had with
  | accept facmax dt u e he hle hinf =>
    intro st rej fuel hf hu hv hfuel
    obtain ⟨n, rfl⟩ : ∃ n, fuel = n + 1 := ⟨fuel - 1, by simp at hfuel; omega⟩
    subst hu
    obtain ⟨h1, h2, h3⟩ := trial_eq F f hF T hT.pos est tstep dt st hv
    rw [← he] at h3
    simp only [adaptiveLoop, if_true]
    rw [if_neg (by rw [h3]; exact (not_gt_one_iff e).2 ⟨hle, hinf⟩), h3]
    have hfac : (stepFactor facmax p e).toReal = Spec.factor facmax p e := by
      rw [stepFactor_eq facmax hf p e (he ▸ hest _ _ _)]; rfl
    exact ⟨_, rfl, by simp [hfac, h2], by simp⟩
  | reject facmax dt u e rej' r he hgt hnext ih =>
    intro st rej fuel hf hu hv hfuel
    obtain ⟨n, rfl⟩ : ∃ n, fuel = n + 1 := ⟨fuel - 1, by simp at hfuel; omega⟩
    subst hu
    obtain ⟨h1, h2, h3⟩ := trial_eq F f hF T hT.pos est tstep dt st hv
    have hval := trial_valid F f hF T hT.pos est tstep dt st hv
    rw [← he] at h3
    simp only [adaptiveLoop, if_true]
    rw [if_pos (by rw [h3]; exact (gt_one_iff e).2 hgt), h3]
    have hfac : (stepFactor facmax p e).toReal = Spec.factor facmax p e := by
      rw [stepFactor_eq facmax hf p e (he ▸ hest _ _ _)]; rfl
    rw [hfac]
    obtain ⟨res, hres, hout, hrej⟩ := ih ⟨st.u0, (rkTrial F T true est tstep dt st).fY,
      (rkTrial F T true est tstep dt st).rhs, (rkTrial F T true est tstep dt st).offset + 1⟩
      (rej ++ [dt]) n (by norm_num) rfl hval (by simp at hfuel; omega)
    exact ⟨res, hres, hout, by rw [hrej]; simp⟩

/-- Fixed-size mode takes the first trial. -/
theorem adaptiveLoop_fixed (F : V → V → V) (f : V → V) (hF : ∀ r u, F r u = f u) (T : Tableau) (hT : T.FSAL)
    (p : ℕ) (est : V → V → V → PyF) (tstep fuel : ℕ) (facmax dt : ℝ) (st : RKArrays V) (rej : List ℝ)
    (hv : FirstStageValid f T tstep st) :
    ∃ res, adaptiveLoop F T p true false est tstep (fuel + 1) facmax dt st rej = some res ∧
      res.arrays.u0 = Spec.rkNew T.s T.A T.b f dt st.u0 ∧ res.dt = dt ∧ res.took = dt ∧ res.rejected = rej ∧
      res.arrays.fY (slot T.s 0 (res.arrays.offset - 1)) = f res.arrays.u0 := by
  obtain ⟨h1, h2, h3⟩ := trial_eq F f hF T hT.pos est tstep dt st hv
  simp only [adaptiveLoop, Bool.false_eq_true, if_false]
  exact ⟨_, rfl, h2, rfl, rfl, rfl, trial_next F f hF T hT est tstep dt st hv⟩

/-- More fuel never changes the result. -/
theorem adaptiveLoop_mono (F : V → V → V) (T : Tableau) (p : ℕ) (fsal adaptive : Bool) (est : V → V → V → PyF)
    (tstep : ℕ) : ∀ (n m : ℕ) (facmax dt : ℝ) (st : RKArrays V) (rej : List ℝ) (res : RKResult V), n ≤ m →
      adaptiveLoop F T p fsal adaptive est tstep n facmax dt st rej = some res →
      adaptiveLoop F T p fsal adaptive est tstep m facmax dt st rej = some res := by
  intro n
  induction n with
  | zero => intro m _ _ _ _ _ _ h; simp [adaptiveLoop] at h
  | succ n ih =>
    intro m facmax dt st rej res hnm h
    obtain ⟨k, rfl⟩ : ∃ k, m = k + 1 := ⟨m - 1, by omega⟩
    simp only [adaptiveLoop] at h ⊢
    by_cases ha : adaptive = true
    · rw [if_pos ha] at h ⊢
      by_cases hg : PyF.Gt (rkTrial F T fsal est tstep dt st).est (.fin 1)
      · rw [if_pos hg] at h ⊢
        exact ih k _ _ _ _ _ (by omega) h
      · rw [if_neg hg] at h ⊢
        exact h
    · rw [if_neg ha] at h ⊢
      exact h

/-- The hard coded tableau is first-same-as-last. -/
theorem bs5_fsal : bs5.FSAL where
  pos := by decide
  last := by
    intro j hj
    have hj' : j < 7 := hj
    have : j = 0 ∨ j = 1 ∨ j = 2 ∨ j = 3 ∨ j = 4 ∨ j = 5 ∨ j = 6 := by omega
    rcases this with h | h | h | h | h | h | h <;> subst h <;> rfl
  zero := by
    show (((bs5b.getD 7 0 : ℚ)) : ℝ) = 0
    simp [bs5b]

end SpectralDNS

import Verif.Lemmas.Adaptive

/-! The first-same-as-last buffer with arbitrary content in the reused slot, and the step-size history. -/

namespace SpectralDNS

variable {V : Type*} [AddCommGroup V] [Module ℝ V]

theorem stagesFrom_zero (a : ℕ → ℕ → ℝ) (f : V → V) (dt : ℝ) (u k : V) : Spec.stagesFrom a f dt u k 0 = k := by
  rw [Spec.stagesFrom, if_pos rfl]

theorem stagesFrom_pos (a : ℕ → ℕ → ℝ) (f : V → V) (dt : ℝ) (u k : V) (i : ℕ) (hi : i ≠ 0) :
    Spec.stagesFrom a f dt u k i = f (u + ∑ j ∈ Finset.range i, (dt * a i j) • Spec.stagesFrom a f dt u k j) := by
  rw [Spec.stagesFrom, if_neg hi, Finset.sum_range]

theorem stagesFrom_self (a : ℕ → ℕ → ℝ) (f : V → V) (dt : ℝ) (u : V) (i : ℕ) :
    Spec.stagesFrom a f dt u (f u) i = Spec.stages a f dt u i := by
  induction i using Nat.strong_induction_on with
  | _ i ih =>
    by_cases hi : i = 0
    · subst hi; rw [stagesFrom_zero, stages_eq]; simp
    · rw [stagesFrom_pos _ _ _ _ _ _ hi, stages_eq]
      congr 2
      exact Finset.sum_congr rfl fun j hj => by rw [ih j (Finset.mem_range.1 hj)]

theorem rkNewFrom_self (s : ℕ) (a : ℕ → ℕ → ℝ) (b : ℕ → ℝ) (f : V → V) (dt : ℝ) (u : V) :
    Spec.rkNewFrom s a b f dt u (f u) = Spec.rkNew s a b f dt u := by
  unfold Spec.rkNewFrom Spec.rkNew
  simp only [stagesFrom_self]

/-- Stage loop with `tstep ≠ 0`: the first stage is whatever the buffer contains. -/
theorem rkStages_from (F : V → V → V) (f : V → V) (hF : ∀ r u, F r u = f u) (T : Tableau) (tstep : ℕ) (ht : tstep ≠ 0)
    (dt : ℝ) (o : ℤ) (u0 : V) (st : (ℕ → V) × V) :
    ∀ j < T.s, (rkStages F T true tstep dt o u0 st).1 (slot T.s j o) =
      Spec.stagesFrom T.A f dt u0 (st.1 (slot T.s 0 o)) j := by
  have key : ∀ m ≤ T.s, ∀ j < m,
      ((List.range m).foldl (rkStage F T true tstep dt o u0) st).1 (slot T.s j o) =
        Spec.stagesFrom T.A f dt u0 (st.1 (slot T.s 0 o)) j := by
    intro m
    induction m with
    | zero => intro _ j hj; omega
    | succ m ih =>
      intro hm j hj
      rw [List.range_succ, List.foldl_append]
      simp only [List.foldl_cons, List.foldl_nil]
      set st' := (List.range m).foldl (rkStage F T true tstep dt o u0) st with hst'
      by_cases hm0 : m = 0
      · subst hm0
        have hj0 : j = 0 := by omega
        subst hj0
        have hskip : rkStage F T true tstep dt o u0 st' 0 = st' := by
          unfold rkStage
          rw [if_neg]
          simp [ht]
        rw [hskip, hst', stagesFrom_zero]
        rfl
      · obtain ⟨h1, h2⟩ := rkStage_eq F f hF T true tstep dt o u0 st' m (by omega) (Or.inr (Or.inr hm0))
        by_cases hjm : j = m
        · subst hjm
          rw [h1, stagesFrom_pos _ _ _ _ _ _ hm0]
          congr 2
          refine Finset.sum_congr rfl fun l hl => ?_
          rw [ih (by omega) l (Finset.mem_range.1 hl)]
        · rw [h2 _ (fun h => hjm (slot_inj (by omega) (by omega) h))]
          exact ih (by omega) j (by omega)
  intro j hj
  exact key T.s le_rfl j hj

/-- Fixed-size step with `tstep ≠ 0` for arbitrary buffer content. -/
theorem fixed_step_from (F : V → V → V) (f : V → V) (hF : ∀ r u, F r u = f u) (T : Tableau) (hT : 0 < T.s)
    (p : ℕ) (est : V → V → V → PyF) (tstep : ℕ) (ht : tstep ≠ 0) (fuel : ℕ) (facmax dt : ℝ) (st : RKArrays V) (rej : List ℝ) :
    ∃ res, adaptiveLoop F T p true false est tstep (fuel + 1) facmax dt st rej = some res ∧
      res.arrays.u0 = Spec.rkNewFrom T.s T.A T.b f dt st.u0 (st.fY (slot T.s 0 (st.offset - 1))) := by
  have h := rkStages_from F f hF T tstep ht dt ((st.offset - 1) % (T.s : ℤ)) st.u0 (st.fY, st.rhs)
  rw [slot_emod] at h
  simp only [adaptiveLoop, Bool.false_eq_true, if_false]
  refine ⟨_, rfl, ?_⟩
  simp only [rkTrial, if_true, rkNew, Spec.rkNewFrom]
  rw [foldl_range'_sum (fun j => (dt * T.b j) • (rkStages F T true tstep dt ((st.offset - 1) % (T.s : ℤ)) st.u0
    (st.fY, st.rhs)).1 (slot T.s j ((st.offset - 1) % (T.s : ℤ)))) st.u0 T.s hT]
  congr 1
  exact Finset.sum_congr rfl fun j hj => by rw [h j (Finset.mem_range.1 hj)]

/-- Constant right-hand side with a replaced first stage. -/
theorem rkNewFrom_const (s : ℕ) (a : ℕ → ℕ → ℝ) (b : ℕ → ℝ) (v : V) (dt : ℝ) (u k : V) :
    Spec.rkNewFrom (s + 1) a b (fun _ => v) dt u k =
      u + (dt * b 0) • k + ∑ j ∈ Finset.range s, (dt * b (j + 1)) • v := by
  unfold Spec.rkNewFrom
  rw [Finset.sum_range_succ', stagesFrom_zero, add_assoc, add_comm ((dt * b 0) • k)]
  congr 2
  exact Finset.sum_congr rfl fun j _ => by rw [stagesFrom_pos _ _ _ _ _ _ (Nat.succ_ne_zero j)]

/-! ### Step sizes, without any assumption on the right-hand side -/

/-- Sizes tried within one call: each at most 4/5 and at least 1/100 of the previous one. -/
def Shrinking : List ℝ → Prop
  | a :: b :: l => (1 / 100 * a ≤ b ∧ b ≤ 4 / 5 * a) ∧ Shrinking (b :: l)
  | _ => True

theorem adaptiveLoop_sizes (F : V → V → V) (T : Tableau) (p : ℕ) (fsal : Bool) (est : V → V → V → PyF)
    (hest : ∀ a b c, (est a b c).Nonneg) (tstep fuel : ℕ) :
    ∀ (facmax dt : ℝ) (st : RKArrays V) (rej : List ℝ) (res : RKResult V), 1 / 100 ≤ facmax → 0 < dt →
      adaptiveLoop F T p fsal true est tstep fuel facmax dt st rej = some res →
      ∃ rej', res.rejected = rej ++ rej' ∧ Shrinking (rej' ++ [res.took]) ∧ (rej' ++ [res.took]).head? = some dt ∧
        0 < res.took ∧ 1 / 100 * res.took ≤ res.dt ∧
        res.dt ≤ (if rej' = [] then facmax else 1) * res.took ∧ ¬ PyF.Gt res.est (.fin 1) := by
  induction fuel with
  | zero => intro _ _ _ _ _ _ _ h; simp [adaptiveLoop] at h
  | succ n ih =>
    intro facmax dt st rej res hf hdt h
    simp only [adaptiveLoop, if_true] at h
    set t := rkTrial F T fsal est tstep dt st with ht
    have hnn : t.est.Nonneg := hest _ _ _
    have hfac : (stepFactor facmax p t.est).toReal = Spec.factor facmax p t.est := by
      rw [stepFactor_eq facmax hf p t.est hnn]; rfl
    have hlo := Spec.le_factor facmax hf p t.est
    have hhi := Spec.factor_le facmax hf p t.est
    rw [hfac] at h
    by_cases hgt : PyF.Gt t.est (.fin 1)
    · rw [if_pos hgt] at h
      have hrj := Spec.factor_reject facmax p t.est ((gt_one_iff _).1 hgt)
      have hpos : 0 < dt * Spec.factor facmax p t.est := mul_pos hdt (by linarith)
      obtain ⟨rej', h1, h2, h3, h4, h5, h6, h7⟩ := ih 1 _ _ _ res (by norm_num) hpos h
      refine ⟨dt :: rej', ?_, ?_, rfl, h4, h5, ?_, h7⟩
      · rw [h1, List.append_assoc]; rfl
      · cases hr : rej' ++ [res.took] with
        | nil => simp at hr
        | cons x xs =>
          rw [hr] at h3 h2
          simp only [List.head?_cons, Option.some.injEq] at h3
          rw [List.cons_append, hr]
          subst h3
          exact ⟨⟨by nlinarith, by nlinarith⟩, h2⟩
      · simp only [reduceCtorEq, if_false]
        by_cases hr : rej' = []
        · simpa [hr] using h6
        · simpa [hr] using h6
    · rw [if_neg hgt] at h
      simp only [Option.some.injEq] at h
      subst h
      refine ⟨[], by simp, trivial, rfl, hdt, ?_, ?_, hgt⟩
      · simp only; nlinarith
      · simp only [if_true]; nlinarith

/-- Termination of the retry loop (with the textbook estimate of a valid buffer). -/
theorem adaptiveLoop_terminates (F : V → V → V) (f : V → V) (hF : ∀ r u, F r u = f u) (T : Tableau) (hT : T.FSAL)
    (p : ℕ) (est : V → V → V → PyF) (hest : ∀ a b c, (est a b c).Nonneg) (tstep : ℕ) (u : V) (δ : ℝ)
    (hδ : ∀ h, 0 < h → h ≤ δ →
      ¬ PyF.Gt (est (Spec.rkErr T.s T.A T.b T.bhat f h u) u (Spec.rkNew T.s T.A T.b f h u)) (.fin 1)) (n : ℕ) :
    ∀ (facmax dt : ℝ) (st : RKArrays V) (rej : List ℝ), 1 / 100 ≤ facmax → 0 < dt → st.u0 = u →
      FirstStageValid f T tstep st → dt * (4 / 5) ^ n ≤ δ →
      ∃ res, adaptiveLoop F T p true true est tstep (n + 1) facmax dt st rej = some res ∧
        res.rejected.length ≤ rej.length + n ∧ min dt (δ / 100) ≤ res.took := by
  induction n with
  | zero =>
    intro facmax dt st rej hf hdt hu hv hle
    obtain ⟨h1, h2, h3⟩ := trial_eq F f hF T hT.pos est tstep dt st hv
    simp only [adaptiveLoop, if_true]
    rw [if_neg (by rw [h3, hu]; exact hδ dt hdt (by simpa using hle))]
    exact ⟨_, rfl, by simp, min_le_left _ _⟩
  | succ n ih =>
    intro facmax dt st rej hf hdt hu hv hle
    obtain ⟨h1, h2, h3⟩ := trial_eq F f hF T hT.pos est tstep dt st hv
    have hval := trial_valid F f hF T hT.pos est tstep dt st hv
    rw [adaptiveLoop]
    simp only [if_true]
    set t := rkTrial F T true est tstep dt st with ht
    by_cases hgt : PyF.Gt t.est (.fin 1)
    · rw [if_pos hgt]
      have hfac : (stepFactor facmax p t.est).toReal = Spec.factor facmax p t.est := by
        rw [stepFactor_eq facmax hf p t.est (h3 ▸ hest _ _ _)]; rfl
      have hlo := Spec.le_factor facmax hf p t.est
      have hrj := Spec.factor_reject facmax p t.est ((gt_one_iff _).1 hgt)
      have hbig : δ < dt := by
        by_contra hc
        exact hδ dt hdt (not_lt.1 hc) (by rw [h3, hu] at hgt; exact hgt)
      rw [hfac]
      have hpow : (0 : ℝ) < (4 / 5) ^ n := by positivity
      obtain ⟨res, e1, e2, e3⟩ := ih 1 (dt * Spec.factor facmax p t.est)
        ⟨st.u0, t.fY, t.rhs, t.offset + 1⟩ (rej ++ [dt]) (by norm_num) (mul_pos hdt (by linarith)) hu hval (by
          have : dt * Spec.factor facmax p t.est ≤ dt * (4 / 5) := by nlinarith
          calc dt * Spec.factor facmax p t.est * (4 / 5) ^ n ≤ dt * (4 / 5) * (4 / 5) ^ n := by nlinarith
            _ = dt * (4 / 5) ^ (n + 1) := by ring
            _ ≤ δ := hle)
      refine ⟨res, e1, ?_, ?_⟩
      · rw [List.length_append] at e2; simp at e2; omega
      · refine le_trans ?_ e3
        refine le_min ?_ (min_le_right _ _)
        refine le_trans (min_le_right _ _) ?_
        nlinarith
    · rw [if_neg hgt]
      exact ⟨_, rfl, by simp, min_le_left _ _⟩

end SpectralDNS

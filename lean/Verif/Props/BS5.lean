import Verif.Lemmas.Stale
import Verif.Lemmas.Order
import Mathlib.Analysis.SpecialFunctions.Log.Basic

/-!
# C21–C25: the embedded Runge-Kutta integrators "BS5_adaptive" and "BS5_fixed"
-/

namespace SpectralDNS

variable {V : Type*} [AddCommGroup V] [Module ℝ V]

/-! ## C21 -/

/-- C21.  The weights used to advance the solution satisfy the order conditions of all rooted trees with at most five
vertices. -/
theorem C21_bs5_order5 : Spec.HasOrder bs5.s bs5.A bs5.b 5 := hasOrder_cast 8 bs5AQ bs5bQ 5 bs5_order5Q

/-- C21.  The embedded weights satisfy the conditions up to order four, which is the `err_order = 4` of the
controller. -/
theorem C21_bs5_embedded_order4 : Spec.HasOrder bs5.s bs5.A bs5.bhat 4 := hasOrder_cast 8 bs5AQ bs5bhatQ 4 bs5hat_order4Q

/-- C21.  The embedded method is not of order five, so the error estimate does not vanish identically. -/
theorem C21_bs5_embedded_not_order5 : ¬ Spec.HasOrder bs5.s bs5.A bs5.bhat 5 := by
  intro h
  have h1 := h (tall 4) (by rw [tall_order])
  have h2 : (tall 4).weight bs5.s bs5.A bs5.bhat = (((tall 4).weight 8 bs5AQ bs5bhatQ : ℚ) : ℝ) :=
    weight_cast 8 bs5AQ bs5bhatQ (tall 4)
  have h3 : (tall 4).weight 8 bs5AQ bs5bhatQ ≠ 1 / ((tall 4).dens : ℚ) := by decide +kernel
  rw [h2] at h1
  apply h3
  have : (((tall 4).weight 8 bs5AQ bs5bhatQ : ℚ) : ℝ) = ((1 / ((tall 4).dens : ℚ) : ℚ) : ℝ) := by
    rw [h1]; push_cast; rfl
  exact_mod_cast this

/-- C21.  Structure of the tableau: strictly lower triangular, and first-same-as-last. -/
theorem C21_bs5_explicit_fsal : (∀ i < 8, ∀ j < 8, i ≤ j → bs5.A i j = 0) ∧ (∀ j < 7, bs5.A 7 j = bs5.b j) ∧ bs5.b 7 = 0 :=
  ⟨bs5_explicit, bs5_fsal.last, bs5_fsal.zero⟩

/-- C21, consequence for every linear equation `u' = L u`: a BS5 step is the Taylor polynomial of the exponential up to
degree five plus three terms of degree six to eight (of which the last vanishes). -/
theorem C21_bs5_linear (L : Module.End ℝ V) (dt : ℝ) (u : V) :
    ∃ c6 c7 : ℝ, Spec.rkNew bs5.s bs5.A bs5.b (fun u => L u) dt u =
      (∑ m ∈ Finset.range 6, (1 / (m.factorial : ℝ)) • (dt • L) ^ m + c6 • (dt • L) ^ 6 + c7 • (dt • L) ^ 7 : Module.End ℝ V) u := by
  refine ⟨(tall 5).weight 8 bs5.A bs5.b, (tall 6).weight 8 bs5.A bs5.b, ?_⟩
  have hw : ∀ m ≤ 4, (tall m).weight 8 bs5.A bs5.b = 1 / ((m + 1).factorial : ℝ) := fun m hm => by
    have := C21_bs5_order5 (tall m) (by rw [tall_order]; omega)
    rw [tall_dens] at this
    exact this
  have h7 : (tall 7).weight 8 bs5.A bs5.b = 0 := by
    refine Finset.sum_eq_zero fun i hi => ?_
    have hi := Finset.mem_range.1 hi
    by_cases h : i < 7
    · rw [tall_elem_zero 8 bs5.A bs5_explicit 7 i hi h, mul_zero]
    · obtain rfl : i = 7 := by omega
      rw [show bs5.b 7 = 0 from bs5_fsal.zero, zero_mul]
  rw [show bs5.s = 8 from rfl, rkNew_linear 8 bs5.A bs5.b bs5_explicit L dt u]
  simp only [Finset.sum_range_succ, Finset.sum_range_zero, hw 0 (by omega), hw 1 (by omega), hw 2 (by omega),
    hw 3 (by omega), hw 4 (by omega), h7, smul_pow, LinearMap.add_apply, LinearMap.smul_apply, zero_add]
  simp only [pow_zero, Module.End.one_apply, smul_smul, Nat.factorial, mul_zero, zero_smul, add_zero]
  norm_num
  simp only [mul_comm, add_assoc]

/-- The order conditions are not vacuous: there are trees with five vertices, e.g. a root with four leaves has density 5. -/
example : ∃ t : Spec.Tree, t.order = 5 ∧ t.dens = 5 :=
  ⟨.graft (.graft (.graft (.graft .leaf .leaf) .leaf) .leaf) .leaf, rfl, rfl⟩

/-- A wrong tableau is rejected by the specification: Euler's method does not have order two. -/
example : ¬ Spec.HasOrder 1 (fun _ _ => (0 : ℝ)) (fun _ => 1) 2 := by
  intro h
  have := h (.graft .leaf .leaf) le_rfl
  simp [Spec.Tree.weight, Spec.Tree.elem, Spec.Tree.dens, Spec.Tree.densAux, Spec.Tree.order] at this

/-! ## C22 -/

theorem runOutputs_mono (F : V → V → V) (est : V → V → V → PyF) (a : Bool) (n m : ℕ) (hnm : n ≤ m) (ds : List ℝ) :
    ∀ (tstep : ℕ) (c : Closure V) (outs), runOutputs F est n (.BS5 a) tstep ds c = some outs →
      runOutputs F est m (.BS5 a) tstep ds c = some outs := by
  induction ds with
  | nil => intro _ _ _ h; exact h
  | cons dt ds ih =>
    intro tstep c outs h
    simp only [runOutputs] at h ⊢
    split at h
    · simp at h
    · rename_i r hr
      have hr' : integrate F est m (.BS5 a) dt tstep c = some r := by
        simp only [integrate, adaptiveRK, Option.map_eq_some_iff] at hr ⊢
        obtain ⟨res, h1, h2⟩ := hr
        exact ⟨res, adaptiveLoop_mono F bs5 4 true a est tstep n m _ _ _ _ _ hnm h1, h2⟩
      rw [hr']
      simp only [Option.map_eq_some_iff] at h ⊢
      obtain ⟨o, h1, h2⟩ := h
      exact ⟨o, ih _ _ _ h1, h2⟩

/-- C22.  Adaptive runs started at `tstep = 0`: whatever the requested sizes and whatever the pattern of rejections, the
code (which reuses the last stage and rotates a ring buffer) ends with states, proposed and taken sizes `outs` iff the textbook
method that recomputes all stages does. -/
theorem C22_fsal_refines (F : V → V → V) (f : V → V) (hF : ∀ r u, F r u = f u) (est : V → V → V → PyF)
    (hest : ∀ a b c, (est a b c).Nonneg) (ds : List ℝ) (rhs u : V) (outs : List (V × ℝ × ℝ)) :
    (∃ fuel, runOutputs F est fuel (.BS5 true) 0 ds (getintegrator rhs u) = some outs) ↔
      Spec.AdaptRun bs5.s bs5.A bs5.b bs5.bhat f 4 est ds u outs := by
  constructor
  · rintro ⟨fuel, h⟩
    have key : ∀ (ds : List ℝ) (tstep : ℕ) (c : Closure V) (outs),
        FirstStageValid f bs5 tstep ⟨c.u0, c.fY, c.rhs, c.offset⟩ →
        runOutputs F est fuel (.BS5 true) tstep ds c = some outs →
        Spec.AdaptRun bs5.s bs5.A bs5.b bs5.bhat f 4 est ds c.u0 outs := by
      intro ds
      induction ds with
      | nil =>
        intro _ c outs _ h
        simp only [runOutputs, Option.some.injEq] at h
        subst h
        exact .nil _
      | cons dt ds ih =>
        intro tstep c outs hv h
        simp only [runOutputs, integrate, adaptiveRK] at h
        cases hl : adaptiveLoop F bs5 4 true true est tstep fuel facmaxDefault dt ⟨c.u0, c.fY, c.rhs, c.offset⟩ [] with
        | none => rw [hl] at h; simp at h
        | some res =>
          rw [hl] at h
          simp only [Option.map_some, Option.map_eq_some_iff] at h
          obtain ⟨o, h1, rfl⟩ := h
          obtain ⟨rej, -, h3, h4⟩ := adaptiveLoop_refines F f hF bs5 bs5_fsal 4 est hest tstep fuel _ _ _ _ _
            (by norm_num [facmaxDefault]) hv hl
          exact .cons _ _ _ rej _ _ _ _ _ h3 (ih _ _ _ (Or.inr h4) h1)
    exact key ds 0 _ outs (Or.inl rfl) h
  · intro h
    have key : ∀ (tstep : ℕ) (c : Closure V), FirstStageValid f bs5 tstep ⟨c.u0, c.fY, c.rhs, c.offset⟩ → c.u0 = u →
        ∃ fuel, runOutputs F est fuel (.BS5 true) tstep ds c = some outs := by
      induction h with
      | nil u => intro _ _ _ _; exact ⟨0, rfl⟩
      | cons dt ds u rej u' dt' took e outs step rest ih =>
        intro tstep c hv hu
        obtain ⟨res, h1, h2, -⟩ := adaptiveLoop_complete F f hF bs5 bs5_fsal 4 est hest tstep step
          ⟨c.u0, c.fY, c.rhs, c.offset⟩ [] (rej.length + 1) (by norm_num) hu hv (by omega)
        obtain ⟨rej', -, -, h4⟩ := adaptiveLoop_refines F f hF bs5 bs5_fsal 4 est hest tstep _ _ _ _ _ _
          (by norm_num) hv h1
        simp only [Prod.mk.injEq] at h2
        obtain ⟨e1, e2, e3, -⟩ := h2
        obtain ⟨fuel, h5⟩ := ih (tstep + 1) { c with u0 := res.arrays.u0, fY := res.arrays.fY, rhs := res.arrays.rhs, offset := res.arrays.offset }
          (Or.inr h4) e1
        refine ⟨max (rej.length + 1) fuel, ?_⟩
        have h1' := adaptiveLoop_mono F bs5 4 true true est tstep _ (max (rej.length + 1) fuel) _ _ _ _ _
          (le_max_left _ _) h1
        have h5' := runOutputs_mono F est true _ (max (rej.length + 1) fuel) (le_max_right _ _) ds _ _ _ h5
        simp only [runOutputs, integrate, adaptiveRK, facmaxDefault, h1', Option.map_some]
        rw [h5']
        simp only [Option.map_some, e1, e2, e3]
    exact key 0 _ (Or.inl rfl) rfl

/-- C22, fixed sizes: "BS5_fixed" started at `tstep = 0` is the textbook method of weights `b`. -/
theorem C22_fsal_refines_fixed (F : V → V → V) (f : V → V) (hF : ∀ r u, F r u = f u) (est : V → V → V → PyF)
    (fuel : ℕ) (ds : List ℝ) (rhs u : V) :
    runOutputs F est (fuel + 1) (.BS5 false) 0 ds (getintegrator rhs u) =
      some (Spec.fixedRun bs5.s bs5.A bs5.b f ds u) := by
  have key : ∀ (ds : List ℝ) (tstep : ℕ) (c : Closure V),
      FirstStageValid f bs5 tstep ⟨c.u0, c.fY, c.rhs, c.offset⟩ →
      runOutputs F est (fuel + 1) (.BS5 false) tstep ds c = some (Spec.fixedRun bs5.s bs5.A bs5.b f ds c.u0) := by
    intro ds
    induction ds with
    | nil => intro _ _ _; rfl
    | cons dt ds ih =>
      intro tstep c hv
      obtain ⟨res, h1, h2, h3, h4, h5, h6⟩ := adaptiveLoop_fixed F f hF bs5 bs5_fsal 4 est tstep fuel facmaxDefault dt
        ⟨c.u0, c.fY, c.rhs, c.offset⟩ [] hv
      simp only at h2
      simp only [runOutputs, integrate, adaptiveRK, h1, Option.map_some]
      rw [ih (tstep + 1) _ (Or.inr h6)]
      simp only [Spec.fixedRun, h2, h3, h4, Option.map_some]
  exact key ds 0 _ (Or.inl rfl)

/-- C22, by name: `BS5_adaptive` chooses its steps, `BS5_fixed` keeps them, whatever the error estimate says. -/
theorem C22_named (F : V → V → V) (f : V → V) (hF : ∀ r u, F r u = f u) (est : V → V → V → PyF) (ds : List ℝ) (rhs u : V) :
    (∃ m, Method.ofName "BS5_fixed" = some m ∧ ∀ fuel, runOutputs F est (fuel + 1) m 0 ds (getintegrator rhs u) =
      some (Spec.fixedRun bs5.s bs5.A bs5.b f ds u)) ∧
    ∃ m, Method.ofName "BS5_adaptive" = some m ∧ ∀ (_ : ∀ a b c, (est a b c).Nonneg) (outs : List (V × ℝ × ℝ)),
      (∃ fuel, runOutputs F est fuel m 0 ds (getintegrator rhs u) = some outs) ↔
        Spec.AdaptRun bs5.s bs5.A bs5.b bs5.bhat f 4 est ds u outs :=
  ⟨⟨_, rfl, fun fuel => C22_fsal_refines_fixed F f hF est fuel ds rhs u⟩,
    ⟨_, rfl, fun hest outs => C22_fsal_refines F f hF est hest ds rhs u outs⟩⟩

/-- C22, any first-same-as-last tableau: a single call from a valid buffer refines the textbook step and leaves a valid
buffer behind. -/
theorem C22_fsal_any_tableau (F : V → V → V) (f : V → V) (hF : ∀ r u, F r u = f u) (T : Tableau)
    (hT : 0 < T.s ∧ (∀ j, j < T.s - 1 → T.A (T.s - 1) j = T.b j) ∧ T.b (T.s - 1) = 0) (p : ℕ)
    (est : V → V → V → PyF) (hest : ∀ a b c, (est a b c).Nonneg) (tstep fuel : ℕ) (dt : ℝ) (st : RKArrays V)
    (hv : FirstStageValid f T tstep st) (res : RKResult V)
    (h : adaptiveRK F T p true true est fuel dt tstep st = some res) :
    Spec.Adapt T.s T.A T.b T.bhat f p est 2 dt st.u0 res.rejected (res.arrays.u0, res.dt, res.took, res.est) ∧
      ∀ tstep', FirstStageValid f T tstep' res.arrays := by
  obtain ⟨rej', h1, h2, h3⟩ := adaptiveLoop_refines F f hF T ⟨hT.1, hT.2.1, hT.2.2⟩ p est hest tstep fuel facmaxDefault dt st [] res
    (by norm_num [facmaxDefault]) hv h
  rw [List.nil_append] at h1
  exact ⟨h1 ▸ h2, fun _ => Or.inr h3⟩

/-- Concrete textbook run with a rejected trial: `u' = 1`, the estimate being the increment of the solution.  A step of size
8 has estimate 8 > 1 and is rejected. -/
example : ∀ e dt' took u' rej, Spec.Adapt 1 (fun _ _ => 0) (fun _ => 1) (fun _ => 1) (fun _ : ℝ => 1) 4
    (fun _ u v => .fin |v - u|) 2 8 0 rej (u', dt', took, e) → rej ≠ [] := by
  intro e dt' took u' rej h hr
  subst hr
  cases h with
  | accept _ _ _ _ he hle _ =>
    have := hle _ he
    norm_num [Spec.rkNew, stages_eq] at this

/-! ## C23 -/

/-- C23 is false (restart): the constant right-hand side 1, BS5_fixed, entered with `tstep = 1` and a fresh closure,
as after a restart, does not give the textbook result. -/
theorem C23_restart_false :
    ¬ ∀ (F : ℝ → ℝ → ℝ) (f : ℝ → ℝ), (∀ r u, F r u = f u) → ∀ (est : ℝ → ℝ → ℝ → PyF) (tstep : ℕ) (dt u : ℝ),
      (integrate F est 1 (.BS5 false) dt tstep (getintegrator 0 u)).map (fun r => r.1.u0) =
        some (Spec.rkNew bs5.s bs5.A bs5.b f dt u) := by
  intro h
  have h1 := h (fun _ _ => 1) (fun _ => 1) (fun _ _ => rfl) (fun _ _ _ => .nan) 1 1 0
  obtain ⟨res, h2, h3⟩ := fixed_step_from (fun _ _ : ℝ => (1 : ℝ)) (fun _ => 1) (fun _ _ => rfl) bs5 (by decide) 4
    (fun _ _ _ => .nan) 1 (by decide) 0 facmaxDefault 1 ⟨0, fun _ => 0, 0, 0⟩ []
  simp only [zero_add] at h2
  simp only [integrate, adaptiveRK, getintegrator, h2, Option.map_some, Option.some.injEq, h3] at h1
  rw [← rkNewFrom_self, show bs5.s = 7 + 1 from rfl, rkNewFrom_const, rkNewFrom_const] at h1
  have hb : bs5.b 0 = 587 / 8064 := by
    show (((587 / 8064 : ℚ)) : ℝ) = 587 / 8064
    push_cast; rfl
  rw [hb] at h1
  simp at h1

/-- C23, exact behaviour after a restart with `tstep ≠ 0`: the step is computed with first stage derivative 0. -/
theorem C23_restart_exact (F : V → V → V) (f : V → V) (hF : ∀ r u, F r u = f u) (est : V → V → V → PyF)
    (tstep : ℕ) (ht : tstep ≠ 0) (dt : ℝ) (rhs u : V) :
    (integrate F est 1 (.BS5 false) dt tstep (getintegrator rhs u)).map (fun r => r.1.u0) =
      some (Spec.rkNewFrom bs5.s bs5.A bs5.b f dt u 0) := by
  obtain ⟨res, h2, h3⟩ := fixed_step_from F f hF bs5 (by decide) 4 est tstep ht 0 facmaxDefault dt
    ⟨u, fun _ => 0, rhs, 0⟩ []
  simp only [zero_add] at h2
  simp only [integrate, adaptiveRK, getintegrator, h2, Option.map_some, h3]

/-- C23, exact behaviour when the callback replaces the state `u'` reached by a step by `v`: the next step
starts from `v` but with the derivative `f u'`. -/
theorem C23_callback_exact (F : V → V → V) (f : V → V) (hF : ∀ r u, F r u = f u) (est : V → V → V → PyF)
    (dt dt' : ℝ) (rhs u v : V) :
    ((integrate F est 1 (.BS5 false) dt 0 (getintegrator rhs u)).bind fun r =>
      (integrate F est 1 (.BS5 false) dt' 1 { r.1 with u0 := v }).map fun r => r.1.u0) =
      some (Spec.rkNewFrom bs5.s bs5.A bs5.b f dt' v (f (Spec.rkNew bs5.s bs5.A bs5.b f dt u))) := by
  obtain ⟨res, e1, e2, -, -, -, e6⟩ := adaptiveLoop_fixed F f hF bs5 bs5_fsal 4 est 0 0 facmaxDefault dt
    ⟨u, fun _ => 0, rhs, 0⟩ [] (Or.inl rfl)
  obtain ⟨res2, e3, e4⟩ := fixed_step_from F f hF bs5 (by decide) 4 est 1 (by decide) 0 facmaxDefault dt'
    ⟨v, res.arrays.fY, res.arrays.rhs, res.arrays.offset⟩ []
  simp only [zero_add] at e1 e3
  simp only [integrate, adaptiveRK, getintegrator, e1, Option.map_some, Option.bind_some, e3]
  rw [e4]
  simp only
  rw [e6, e2]

/-- C23, the part that holds (missing: callbacks that change the derivative, and restarts): a callback that replaces the
state by one with the same right-hand side does no harm. -/
theorem C23_callback_partial (F : V → V → V) (f : V → V) (hF : ∀ r u, F r u = f u) (est : V → V → V → PyF)
    (dt dt' : ℝ) (rhs u v : V) (hv : f v = f (Spec.rkNew bs5.s bs5.A bs5.b f dt u)) :
    ((integrate F est 1 (.BS5 false) dt 0 (getintegrator rhs u)).bind fun r =>
      (integrate F est 1 (.BS5 false) dt' 1 { r.1 with u0 := v }).map fun r => r.1.u0) =
      some (Spec.rkNew bs5.s bs5.A bs5.b f dt' v) := by
  rw [C23_callback_exact F f hF est dt dt' rhs u v, ← hv, rkNewFrom_self]

/-- Concrete case: `f (x, y) = (y, 0)` and a callback that changes `x` only. -/
example : (fun p : ℝ × ℝ => (p.2, (0 : ℝ))) (5, 1) = (fun p : ℝ × ℝ => (p.2, (0 : ℝ))) (2, 1) := rfl

open Classical in
/-- C23 is false (callback): even in a run started at `tstep = 0`, if the `update` callback changes the state between two
steps the second step uses the derivative of the old state.  Witness in the plane: `f = 0` on the axis `y = 0`
and `f = (1, 0)` elsewhere; the callback moves the state from `(0,0)` to `(0,1)`. -/
theorem C23_callback_false :
    ¬ ∀ (F : ℝ × ℝ → ℝ × ℝ → ℝ × ℝ) (f : ℝ × ℝ → ℝ × ℝ), (∀ r u, F r u = f u) →
      ∀ (est : ℝ × ℝ → ℝ × ℝ → ℝ × ℝ → PyF) (dt : ℝ) (u v : ℝ × ℝ),
      ((integrate F est 1 (.BS5 false) dt 0 (getintegrator 0 u)).bind fun r =>
        (integrate F est 1 (.BS5 false) dt 1 { r.1 with u0 := v }).map fun r => r.1.u0) =
        some (Spec.rkNew bs5.s bs5.A bs5.b f dt v) := by
  intro h
  let f : ℝ × ℝ → ℝ × ℝ := fun p => if p.2 = 0 then 0 else (1, 0)
  have h1 := h (fun _ => f) f (fun _ _ => rfl) (fun _ _ _ => .nan) 1 0 (0, 1)
  rw [C23_callback_exact (fun _ => f) f (fun _ _ => rfl), Option.some.injEq,
    ← rkNewFrom_self bs5.s bs5.A bs5.b f 1 (0, 1)] at h1
  have hz : ∀ i, Spec.stages bs5.A f 1 0 i = 0 := by
    intro i
    induction i using Nat.strong_induction_on with
    | _ i ih =>
      rw [stages_eq, Finset.sum_eq_zero (fun j hj => by rw [ih j (Finset.mem_range.1 hj), smul_zero])]
      simp [f]
  have hu0 : f (Spec.rkNew bs5.s bs5.A bs5.b f 1 0) = 0 := by
    simp [Spec.rkNew, hz, f]
  have hv : f (0, 1) = (1, 0) := by simp [f]
  -- along both computations the second coordinate is 1, so `f` may be replaced by a constant
  have hconst : ∀ k : ℝ × ℝ, k.2 = 0 → ∀ i, Spec.stagesFrom bs5.A f 1 (0, 1) k i =
      Spec.stagesFrom bs5.A (fun _ => ((1 : ℝ), (0 : ℝ))) 1 (0, 1) k i ∧
      (Spec.stagesFrom bs5.A f 1 (0, 1) k i).2 = 0 := by
    intro k hk i
    induction i using Nat.strong_induction_on with
    | _ i ih =>
      by_cases hi : i = 0
      · subst hi; simp [stagesFrom_zero, hk]
      · rw [stagesFrom_pos _ _ _ _ _ _ hi, stagesFrom_pos _ _ _ _ _ _ hi]
        have hs : (∑ j ∈ Finset.range i, (1 * bs5.A i j) • Spec.stagesFrom bs5.A f 1 ((0 : ℝ), (1 : ℝ)) k j).2 = 0 := by
          rw [Prod.snd_sum]
          exact Finset.sum_eq_zero fun j hj => by
            rw [Prod.smul_snd, (ih j (Finset.mem_range.1 hj)).2, smul_zero]
        have : f ((0, 1) + ∑ j ∈ Finset.range i, (1 * bs5.A i j) • Spec.stagesFrom bs5.A f 1 ((0 : ℝ), (1 : ℝ)) k j) = (1, 0) := by
          simp only [f]
          rw [if_neg]
          rw [Prod.snd_add, hs]
          norm_num
        rw [this]
        exact ⟨rfl, rfl⟩
  have hnew : ∀ k : ℝ × ℝ, k.2 = 0 → Spec.rkNewFrom bs5.s bs5.A bs5.b f 1 (0, 1) k =
      Spec.rkNewFrom bs5.s bs5.A bs5.b (fun _ => ((1 : ℝ), (0 : ℝ))) 1 (0, 1) k := fun k hk => by
    simp only [Spec.rkNewFrom, (hconst k hk _).1]
  have hb : bs5.b 0 = 587 / 8064 := by
    show (((587 / 8064 : ℚ)) : ℝ) = 587 / 8064
    push_cast; rfl
  rw [hu0, hv, hnew 0 rfl, hnew (1, 0) rfl, show bs5.s = 7 + 1 from rfl, rkNewFrom_const, rkNewFrom_const, hb] at h1
  have := congrArg Prod.fst h1
  simp at this

/-! ## C24 -/

/-- C24.  Whatever the right-hand side, tableau, content of the buffers, tolerance test and starting size `dt > 0`, a completed
adaptive call tried the sizes `rejected ++ [took]`, starting with `dt`, each between 1/100 and 4/5 of the previous one;
all are positive; the proposed next size is between 1/100 and 2 times the size taken, and not larger than the size
taken if there was a rejection in this call. -/
theorem C24_controller_bounds (F : V → V → V) (T : Tableau) (p : ℕ) (fsal : Bool) (est : V → V → V → PyF)
    (hest : ∀ a b c, (est a b c).Nonneg) (fuel : ℕ) (dt : ℝ) (hdt : 0 < dt) (tstep : ℕ) (st : RKArrays V) (res : RKResult V)
    (h : adaptiveRK F T p fsal true est fuel dt tstep st = some res) :
    (res.rejected ++ [res.took]).head? = some dt ∧
    (∀ i, (hi : i + 1 < (res.rejected ++ [res.took]).length) →
      1 / 100 * (res.rejected ++ [res.took])[i] ≤ (res.rejected ++ [res.took])[i + 1] ∧
      (res.rejected ++ [res.took])[i + 1] ≤ 4 / 5 * (res.rejected ++ [res.took])[i]) ∧
    0 < res.took ∧ 1 / 100 * res.took ≤ res.dt ∧ res.dt ≤ 2 * res.took ∧ (res.rejected ≠ [] → res.dt ≤ res.took) := by
  obtain ⟨rej', h1, h2, h3, h4, h5, h6, -⟩ := adaptiveLoop_sizes F T p fsal est hest tstep fuel facmaxDefault dt st [] res
    (by norm_num [facmaxDefault]) hdt h
  rw [List.nil_append] at h1
  subst h1
  refine ⟨h3, ?_, h4, h5, ?_, ?_⟩
  · have key : ∀ l : List ℝ, Shrinking l → ∀ i, (hi : i + 1 < l.length) →
        1 / 100 * l[i] ≤ l[i + 1] ∧ l[i + 1] ≤ 4 / 5 * l[i] := by
      intro l
      induction l with
      | nil => intro _ i hi; simp at hi
      | cons a l ih =>
        intro hs i hi
        cases l with
        | nil => simp at hi
        | cons b l =>
          cases i with
          | zero => exact hs.1
          | succ i => exact ih hs.2 i (by simpa using hi)
    exact key _ h2
  · by_cases hr : res.rejected = []
    · simpa [hr, facmaxDefault] using h6
    · simp only [hr, if_false, one_mul] at h6; linarith
  · intro hr; simpa [hr] using h6

/-- C24.  The factor itself, for every estimate including 0, infinity and NaN: finite and within `[0.01, 2]`. -/
theorem C24_factor_range (p : ℕ) (e : PyF) (he : e.Nonneg) :
    ∃ x, stepFactor facmaxDefault p e = .fin x ∧ 1 / 100 ≤ x ∧ x ≤ 2 := by
  have hf : (1 : ℝ) / 100 ≤ facmaxDefault := by norm_num [facmaxDefault]
  exact ⟨_, stepFactor_eq _ hf p e he, Spec.le_factor _ hf p e, Spec.factor_le _ hf p e⟩

/-- C24.  The factor is the documented formula `min(2, max(0.01, 0.8 est^(-1/(p+1))))` for positive estimates. -/
theorem C24_factor_formula (p : ℕ) (x : ℝ) (hx : 0 < x) :
    stepFactor facmaxDefault p (.fin x) = .fin (min 2 (max 0.01 (0.8 * x ^ (-(1 / ((p : ℝ) + 1)))))) := by
  rw [stepFactor_eq _ (by norm_num [facmaxDefault]) p _ (show PyF.Nonneg (.fin x) from hx.le)]
  simp only [Spec.factor, hx.ne', if_false, facmaxDefault]
  norm_num

/-- C24.  The special values: a vanishing error doubles the step, NaN and infinity give the smallest factor. -/
theorem C24_factor_special (p : ℕ) : stepFactor facmaxDefault p (.fin 0) = .fin 2 ∧
    stepFactor facmaxDefault p .nan = .fin 0.01 ∧ stepFactor facmaxDefault p .inf = .fin 0.01 := by
  refine ⟨?_, ?_, ?_⟩ <;> rw [stepFactor_eq _ (by norm_num [facmaxDefault]) p _ (by simp [PyF.Nonneg])] <;>
    norm_num [Spec.factor, facmaxDefault]

/-- A concrete call: constant right-hand side, estimate 0 — accepted at once, next size doubled. -/
example : ∃ res, adaptiveRK (fun _ _ : ℝ => (1 : ℝ)) bs5 4 true true (fun _ _ _ => .fin 0) 1 3 0 ⟨0, fun _ => 0, 0, 0⟩ = some res ∧
    res.rejected = [] ∧ res.took = 3 ∧ res.dt = 6 := by
  simp only [adaptiveRK, adaptiveLoop, if_true]
  have hng : ¬ PyF.Gt (.fin 0) (.fin 1) := by simp [PyF.Gt]
  rw [if_neg (by simpa [rkTrial] using hng)]
  refine ⟨_, rfl, rfl, rfl, ?_⟩
  have : (rkTrial (fun _ _ : ℝ => (1 : ℝ)) bs5 true (fun _ _ _ => .fin 0) 0 3 ⟨0, fun _ => 0, 0, 0⟩).est = .fin 0 := rfl
  simp only [this, (C24_factor_special 4).1, PyF.toReal]
  norm_num

/-! ## C25 -/

/-- C25.  Acceptance: the trial accepted by an adaptive call has an estimate that is not above one.  (NaN is not above one,
so a blown-up step is accepted: see `C25_nan_accepted`.) -/
theorem C25_accepted (F : V → V → V) (T : Tableau) (p : ℕ) (fsal : Bool) (est : V → V → V → PyF)
    (hest : ∀ a b c, (est a b c).Nonneg) (fuel : ℕ) (dt : ℝ) (hdt : 0 < dt) (tstep : ℕ) (st : RKArrays V) (res : RKResult V)
    (h : adaptiveRK F T p fsal true est fuel dt tstep st = some res) :
    (∀ x, res.est = .fin x → x ≤ 1) ∧ res.est ≠ .inf := by
  obtain ⟨-, -, -, -, -, -, -, h7⟩ := adaptiveLoop_sizes F T p fsal est hest tstep fuel facmaxDefault dt st [] res
    (by norm_num [facmaxDefault]) hdt h
  exact (not_gt_one_iff _).1 h7

/-- C25.  Finding: if the error estimate is NaN the step is accepted, and the next size is a hundredth. -/
theorem C25_nan_accepted (F : V → V → V) (T : Tableau) (p : ℕ) (fsal : Bool) (fuel : ℕ) (dt : ℝ) (tstep : ℕ)
    (st : RKArrays V) :
    ∃ res, adaptiveRK F T p fsal true (fun _ _ _ => .nan) (fuel + 1) dt tstep st = some res ∧
      res.took = dt ∧ res.dt = dt * 0.01 := by
  simp only [adaptiveRK, adaptiveLoop, if_true]
  rw [if_neg (by simp [rkTrial, PyF.Gt])]
  refine ⟨_, rfl, rfl, ?_⟩
  have : (rkTrial F T fsal (fun _ _ _ => .nan) tstep dt st).est = .nan := rfl
  simp only [this, (C24_factor_special p).2.1, PyF.toReal]

/-- C25.  Termination: if all positive steps up to `δ > 0` from the current state are within tolerance, the retry loop ends
after at most `n` rejections for every `n` with `dt 0.8^n ≤ δ`, and the step taken is at least `min dt (δ/100)`. -/
theorem C25_terminates (F : V → V → V) (f : V → V) (hF : ∀ r u, F r u = f u) (T : Tableau)
    (hT : 0 < T.s ∧ (∀ j, j < T.s - 1 → T.A (T.s - 1) j = T.b j) ∧ T.b (T.s - 1) = 0) (p : ℕ)
    (est : V → V → V → PyF) (hest : ∀ a b c, (est a b c).Nonneg) (tstep : ℕ) (st : RKArrays V)
    (hv : FirstStageValid f T tstep st) (δ : ℝ)
    (hδ : ∀ h, 0 < h → h ≤ δ → ¬ PyF.Gt (est (Spec.rkErr T.s T.A T.b T.bhat f h st.u0) st.u0
      (Spec.rkNew T.s T.A T.b f h st.u0)) (.fin 1)) (dt : ℝ) (hdt : 0 < dt) (n : ℕ) (hn : dt * (4 / 5) ^ n ≤ δ) :
    ∃ res, adaptiveRK F T p true true est (n + 1) dt tstep st = some res ∧ res.rejected.length ≤ n ∧
      min dt (δ / 100) ≤ res.took := by
  obtain ⟨res, h1, h2, h3⟩ := adaptiveLoop_terminates F f hF T ⟨hT.1, hT.2.1, hT.2.2⟩ p est hest tstep st.u0 δ hδ n
    facmaxDefault dt st [] (by norm_num [facmaxDefault]) hdt rfl hv hn
  exact ⟨res, h1, by simpa using h2, h3⟩

/-- C25.  The same with the logarithmic bound made explicit. -/
theorem C25_terminates_log (F : V → V → V) (f : V → V) (hF : ∀ r u, F r u = f u) (T : Tableau)
    (hT : 0 < T.s ∧ (∀ j, j < T.s - 1 → T.A (T.s - 1) j = T.b j) ∧ T.b (T.s - 1) = 0) (p : ℕ)
    (est : V → V → V → PyF) (hest : ∀ a b c, (est a b c).Nonneg) (tstep : ℕ) (st : RKArrays V)
    (hv : FirstStageValid f T tstep st) (δ : ℝ) (hδ0 : 0 < δ)
    (hδ : ∀ h, 0 < h → h ≤ δ → ¬ PyF.Gt (est (Spec.rkErr T.s T.A T.b T.bhat f h st.u0) st.u0
      (Spec.rkNew T.s T.A T.b f h st.u0)) (.fin 1)) (dt : ℝ) (hdt : 0 < dt) :
    ∃ fuel res, adaptiveRK F T p true true est fuel dt tstep st = some res ∧
      res.rejected.length ≤ ⌈Real.log (dt / δ) / Real.log (5 / 4)⌉₊ := by
  set n := ⌈Real.log (dt / δ) / Real.log (5 / 4)⌉₊ with hn
  have hl : 0 < Real.log (5 / 4) := Real.log_pos (by norm_num)
  have h1 : Real.log (dt / δ) ≤ n * Real.log (5 / 4) := (div_le_iff₀ hl).1 (Nat.le_ceil _)
  have h2 : dt / δ ≤ (5 / 4 : ℝ) ^ n := by
    rw [← Real.log_pow] at h1
    exact (Real.log_le_log_iff (div_pos hdt hδ0) (by positivity)).1 h1
  have h3 : dt * (4 / 5) ^ n ≤ δ := by
    have h4 : dt ≤ (5 / 4 : ℝ) ^ n * δ := (div_le_iff₀ hδ0).1 h2
    calc dt * (4 / 5) ^ n ≤ (5 / 4 : ℝ) ^ n * δ * (4 / 5) ^ n :=
          mul_le_mul_of_nonneg_right h4 (by positivity)
      _ = ((5 / 4 : ℝ) * (4 / 5)) ^ n * δ := by rw [mul_pow]; ring
      _ = δ := by norm_num
  obtain ⟨res, e1, e2, -⟩ := C25_terminates F f hF T hT p est hest tstep st hv δ hδ dt hdt n h3
  exact ⟨n + 1, res, e1, e2⟩

/-- C25.  Fixed mode: the first trial is always taken, with the requested size, whatever the estimate. -/
theorem C25_fixed (F : V → V → V) (T : Tableau) (p : ℕ) (fsal : Bool) (est : V → V → V → PyF) (fuel : ℕ) (dt : ℝ)
    (tstep : ℕ) (st : RKArrays V) :
    ∃ res, adaptiveRK F T p fsal false est (fuel + 1) dt tstep st = some res ∧ res.rejected = [] ∧ res.took = dt ∧ res.dt = dt := by
  simp only [adaptiveRK, adaptiveLoop, Bool.false_eq_true, if_false]
  exact ⟨_, rfl, rfl, rfl, rfl⟩

/-- The termination hypothesis is met, with rejections really happening, by `u' = 1` and the increment as estimate: every step up
to 1 is acceptable, larger ones are not. -/
example : ∃ res, adaptiveRK (fun _ _ : ℝ => (1 : ℝ)) ⟨2, fun i j => if i = 1 ∧ j = 0 then 1 else 0, fun j => if j = 0 then 1 else 0,
      fun _ => 1 / 2⟩ 4 true true (fun _ u v => .fin |v - u|) 12 8 0 ⟨0, fun _ => 0, 0, 0⟩ = some res ∧
    res.rejected.length ≤ 11 ∧ min 8 (1 / 100) ≤ res.took := by
  refine C25_terminates (fun _ _ : ℝ => (1 : ℝ)) (fun _ => 1) (fun _ _ => rfl) _ ⟨by decide, ?_, by simp⟩ 4 _
    (fun a b c => abs_nonneg _) 0 _ (Or.inl rfl) 1 ?_ 8 (by norm_num) 11 (by norm_num)
  · intro j hj
    have : j = 0 := by simp at hj; exact hj
    subst this; simp
  · intro h h0 h1
    simp only [Spec.rkNew, Finset.sum_range_succ, Finset.sum_range_zero, stages_eq, PyF.Gt]
    simp [abs_of_pos h0, h1]

end SpectralDNS

import Mathlib.Algebra.Order.Floor.Semiring
import Mathlib.Tactic.Positivity
import Verif.Lemmas.Solve
import Verif.Lemmas.Controller

/-!
# C27-C32: the time loop
-/

namespace SpectralDNS.Solve

variable {S C D : Type*}

/-- The state at the start of the loop. -/
abbrev start (sv : Solver S C D) (p : Params) (s : S) (h5 : H5 D) : St S C D := ⟨p, s, sv.getintegrator s, h5, [], []⟩

/-- A fixed-step integrator: it never raises, takes the requested step and proposes the same step again. -/
def FixedStep (sv : Solver S C D) : Prop := ∀ p s c, ∃ s' c', sv.integrate p s c = some (s', c', p.dt, p.dt)

/-- A solver used in the examples: it counts its steps in the state and never stops by itself. -/
def counter (end_of_tstep : Params → ℕ → ℝ × ℕ × Bool) : Solver ℕ Unit ℕ where
  getintegrator _ := ()
  integrate p s c := some (s + 1, c, p.dt, p.dt)
  update _ s := s
  update_components s := s
  results s := s
  levels := [(0, fun s => s), (1, fun s => s - 1)]
  end_of_tstep := end_of_tstep
  regression_test _ s := s
  killed _ := false

/-- Both ways in which `solve` reaches its last line. -/
def Result.reachesClose (r : Result S C D) (st : St S C D) : Prop := r = .returned st ∨ r = .crashedInClose st

theorem solve_of_finished {sv : Solver S C D} {fuel : ℕ} {p : Params} {s : S} {h5 : H5 D} {st : St S C D}
    (h : loop sv fuel (start sv p s h5) = .finished st) :
    ∃ st', (solve sv fuel p s h5).reachesClose st' ∧ st'.p = { st.p with dt := p.dt } ∧ st'.took = st.took ∧
      st'.outs = st.outs ∧ st'.h5 = st.h5 ∧ st'.s = sv.regression_test st'.p st.s ∧
      (st.h5.cfile = true → st.h5.wfile = true → solve sv fuel p s h5 = .returned st') := by
  unfold solve
  simp only [h, h5close]
  by_cases hc : st.h5.cfile = true ∧ st.h5.wfile = true
  · refine ⟨{ st with p := { st.p with dt := p.dt }, s := sv.regression_test { st.p with dt := p.dt } st.s },
      Or.inl ?_, rfl, rfl, rfl, rfl, rfl, fun _ _ => ?_⟩ <;> simp [hc]
  · refine ⟨{ st with p := { st.p with dt := p.dt }, s := sv.regression_test { st.p with dt := p.dt } st.s },
      Or.inr ?_, rfl, rfl, rfl, rfl, rfl, fun h1 h2 => absurd ⟨h1, h2⟩ hc⟩
    simp [hc]

theorem reachesClose_finished {sv : Solver S C D} {fuel : ℕ} {p : Params} {s : S} {h5 : H5 D} {st : St S C D}
    (h : (solve sv fuel p s h5).reachesClose st) :
    ∃ st', loop sv fuel (start sv p s h5) = .finished st' ∧ st.p = { st'.p with dt := p.dt } ∧ st.took = st'.took ∧
      st.outs = st'.outs ∧ st.h5 = st'.h5 ∧ st.s = sv.regression_test st.p st'.s := by
  unfold solve at h
  rcases hl : loop sv fuel (start sv p s h5) with st1 | st1 | st1 | _
  · refine ⟨st1, rfl, ?_⟩
    simp only [hl, h5close] at h
    by_cases hc : st1.h5.cfile = true ∧ st1.h5.wfile = true
    · simp only [hc, and_self, if_true] at h
      rcases h with h | h
      · injection h with h
        subst h
        exact ⟨rfl, rfl, rfl, rfl, rfl⟩
      · simp at h
    · simp only [hc, if_false] at h
      rcases h with h | h
      · simp at h
      · injection h with h
        subst h
        exact ⟨rfl, rfl, rfl, rfl, rfl⟩
  all_goals
    simp only [hl] at h
    rcases h with h | h <;> simp at h

/-! ## C27 -/

theorem loop_channel (sv : Solver S C D) (rotate : S → S) (hend : ∀ p s, sv.end_of_tstep p s = endChannel rotate p s)
    (hfix : FixedStep sv) (hk : ∀ n, sv.killed n = false) (dt : ℝ) (n : ℕ) :
    ∀ (fuel : ℕ) (st : St S C D), n < fuel → st.p.dt = dt →
      (∀ m : ℕ, 1 ≤ m → (m ≤ n ↔ st.p.t + m * dt ≤ st.p.T + 1e-12)) →
      ∃ st', loop sv fuel st = .finished st' ∧ st'.took = st.took ++ List.replicate n dt ∧
        st'.p = { st.p with t := st.p.t + n * dt, tstep := st.p.tstep + n } ∧
        (n = 0 → st' = st) ∧ (n ≠ 0 → st'.h5.cfile = true ∧ st'.h5.wfile = true) := by
  induction n with
  | zero =>
    intro fuel st hf hdt hn
    obtain ⟨f, rfl⟩ : ∃ f, fuel = f + 1 := ⟨fuel - 1, by omega⟩
    refine ⟨st, loop_guard ?_ f, by simp, ?_, fun _ => rfl, fun h => absurd rfl h⟩
    · have := hn 1 le_rfl
      rw [hdt]
      simpa using this
    · simp
  | succ n ih =>
    intro fuel st hf hdt hn
    obtain ⟨f, rfl⟩ : ∃ f, fuel = f + 1 := ⟨fuel - 1, by omega⟩
    obtain ⟨s', c', hi⟩ := hfix st.p st.s st.c
    have hg : st.p.t + st.p.dt ≤ st.p.T + 1e-12 := by
      have := (hn 1 le_rfl).1 (by omega)
      rw [hdt]
      simpa using this
    have ha := afterIntegrate_alive sv st (s', c', st.p.dt, st.p.dt) (hk _)
    simp only [hend, endChannel, Bool.not_false] at ha
    have hl := loop_step hg hi ha f
    rw [hl]
    set st1 := (afterIntegrate sv st (s', c', st.p.dt, st.p.dt)).1 with hst1
    rw [ha] at hst1
    dsimp only at hst1
    rw [← hst1]
    have e1 : st1.p = { st.p with t := st.p.t + dt, tstep := st.p.tstep + 1 } := by
      rw [hst1]; simp [outP, hdt]
    have e2 : st1.took = st.took ++ [dt] := by rw [hst1]; simp [hdt]
    obtain ⟨st', h1, h2, h3, h4, h5⟩ := ih f st1 (by omega) (by rw [e1]; exact hdt) (by
      intro m hm
      have := hn (m + 1) (by omega)
      rw [e1]
      simp only
      push_cast at this
      rw [this, add_mul, one_mul, add_comm (m * dt) dt, add_assoc])
    refine ⟨st', h1, ?_, ?_, fun h => absurd h (by omega), fun _ => ?_⟩
    · rw [h2, e2, List.replicate_succ, List.append_assoc]; rfl
    · rw [h3, e1]
      simp only [Params.mk.injEq, true_and, and_true]
      refine ⟨?_, by omega⟩
      push_cast
      ring
    · by_cases h0 : n = 0
      · rw [h4 h0, hst1]
        exact ⟨rfl, rfl⟩
      · exact h5 h0

/-- The number of steps in C27 exists and is unique. -/
theorem exists_stepCount (t0 T dt : ℝ) (hdt : 0 < dt) :
    ∃! n : ℕ, ∀ m : ℕ, 1 ≤ m → (m ≤ n ↔ t0 + m * dt ≤ T + 1e-12) := by
  refine ⟨⌊(T + 1e-12 - t0) / dt⌋₊, ?_, ?_⟩
  · intro m hm
    rw [Nat.le_floor_iff' (by omega), le_div_iff₀ hdt]
    constructor <;> intro h <;> linarith
  · intro n hn
    apply le_antisymm
    · rcases Nat.eq_zero_or_pos n with h | h
      · omega
      · rw [Nat.le_floor_iff' (by omega), le_div_iff₀ hdt]
        have := (hn n h).1 le_rfl
        linarith
    · rcases Nat.eq_zero_or_pos ⌊(T + 1e-12 - t0) / dt⌋₊ with h | h
      · omega
      · rw [hn _ h]
        have : ((⌊(T + 1e-12 - t0) / dt⌋₊ : ℕ) : ℝ) ≤ (T + 1e-12 - t0) / dt := by
          rw [← Nat.le_floor_iff' (by omega)]
        rw [le_div_iff₀ hdt] at this
        linarith

/-- C27.  Channel-flow solvers (no end-of-step control, fixed step): let `n` be the number of step counts `m ≥ 1` with
`t0 + m dt ≤ T + 1e-12`.  Then `solve` takes exactly `n` steps, all of size `dt`, reaches its last line with
`t = t0 + n dt`, `tstep` advanced by `n` and everything else in the parameters (`dt` included) as before; it returns
normally if `n ≥ 1`. -/
theorem C27_step_count (sv : Solver S C D) (rotate : S → S) (hend : ∀ p s, sv.end_of_tstep p s = endChannel rotate p s)
    (hfix : FixedStep sv) (hk : ∀ n, sv.killed n = false) (p : Params) (s : S) (h5 : H5 D) (n : ℕ)
    (hn : ∀ m : ℕ, 1 ≤ m → (m ≤ n ↔ p.t + m * p.dt ≤ p.T + 1e-12)) (fuel : ℕ) (hf : n < fuel) :
    ∃ st, (solve sv fuel p s h5).reachesClose st ∧ st.took = List.replicate n p.dt ∧
      st.p = { p with t := p.t + n * p.dt, tstep := p.tstep + n } ∧
      (1 ≤ n → solve sv fuel p s h5 = .returned st) := by
  obtain ⟨st, h1, h2, h3, h4, h5'⟩ := loop_channel sv rotate hend hfix hk p.dt n fuel (start sv p s h5) hf rfl hn
  obtain ⟨st', k1, k2, k3, -, -, -, k4⟩ := solve_of_finished h1
  refine ⟨st', k1, by rw [k3, h2]; rfl, by rw [k2, h3], fun hn1 => ?_⟩
  obtain ⟨a, b⟩ := h5' (by omega)
  exact k4 a b

/-- A case with ten steps, the end time not being a multiple of the step. -/
example : ∃ st, solve (counter (endChannel id)) 20 ⟨0, 0.1, 1.05, 3, 1, 1, true⟩ 0 ⟨false, false, ⟨⟨fun _ => none, 0, 0⟩, []⟩⟩ =
    .returned st ∧ st.p.t = 1 ∧ st.p.tstep = 13 := by
  obtain ⟨st, -, -, h3, h4⟩ := C27_step_count (counter (endChannel id)) id (fun _ _ => rfl) (fun p s c => ⟨_, _, rfl⟩) (fun _ => rfl)
    ⟨0, 0.1, 1.05, 3, 1, 1, true⟩ 0 ⟨false, false, ⟨⟨fun _ => none, 0, 0⟩, []⟩⟩ 10 (by
      intro m hm
      simp only
      constructor
      · intro h
        have : (m : ℝ) ≤ 10 := by exact_mod_cast h
        norm_num; linarith
      · intro h
        by_contra h'
        have : (11 : ℝ) ≤ m := by exact_mod_cast (by omega : 11 ≤ m)
        norm_num at h; linarith) 20 (by norm_num)
  refine ⟨st, h4 (by norm_num), ?_, ?_⟩ <;> rw [h3]
  norm_num

/-! ## C28 -/

/-- C28.  Periodic solvers, any integrator that never takes a larger step than requested (`took ≤ max dt 0`, so that a
negative request is covered): whenever the loop has been entered and `solve` comes to its end, `|t - T| < 1e-12`, and `dt` has its old
value. -/
theorem C28_ends_at_T (sv : Solver S C D) (hend : ∀ p s, sv.end_of_tstep p s = endPeriodic p s)
    (p : Params) (s : S) (h5 : H5 D) (fuel : ℕ) (st : St S C D)
    (h : (solve sv fuel p s h5).reachesClose st) (hne : st.took ≠ []) :
    |st.p.t - p.T| < 1e-12 ∧ st.p.dt = p.dt ∧ solve sv fuel p s h5 = .returned st := by
  obtain ⟨st', h1, h2, h3, -, h4, -⟩ := reachesClose_finished h
  have hT : st'.p.T = p.T := (loop_finished_seen h1).inv (fun x => x.p.T = p.T) rfl fun x r hx _ _ => by
    rw [(afterIntegrate_basic sv x r).2.2.1, hx]
  have hopen : st'.h5.cfile = true ∧ st'.h5.wfile = true :=
    (loop_finished_seen h1).inv (fun x => x.took ≠ [] → x.h5.cfile = true ∧ x.h5.wfile = true)
      (fun h => absurd rfl h) (fun x r _ _ _ _ => by rw [(afterIntegrate_h5 sv x r).1]; exact ⟨rfl, rfl⟩) (by rwa [h3] at hne)
  refine ⟨?_, by rw [h2], ?_⟩
  · rw [h2]
    simp only
    rcases loop_finished h1 with ⟨hr, hg⟩ | ⟨st1, r, hr, hg, hi, ha⟩
    · exfalso
      -- the guard holds at the top of the loop after every completed pass
      have key : st'.took = [] ∨ st'.p.t + st'.p.dt ≤ st'.p.T + 1e-12 := by
        refine hr.inv (fun x => x.took = [] ∨ x.p.t + x.p.dt ≤ x.p.T + 1e-12) (Or.inl rfl) ?_
        intro x r x' _ _ _ ha
        right
        have hk : sv.killed (x.p.tstep + 1) = false := by
          by_contra hk
          have := (afterIntegrate_killed sv x r (by simpa using hk)).1
          rw [ha] at this
          simp at this
        rw [afterIntegrate_alive sv x r hk] at ha
        simp only [hend, Prod.mk.injEq] at ha
        obtain ⟨ha1, ha2⟩ := ha
        subst ha1
        simp only at *
        set q := outP x r
        unfold endPeriodic at *
        by_cases h1 : |q.t - q.T| < 1e-12
        · simp [h1] at ha2
        · by_cases h2 : |q.t + q.dt - q.T| < 1e-12 ∨ q.t + q.dt ≥ q.T + 1e-12
          · simp only [h1, h2, if_false, if_true]
            have : (0 : ℝ) ≤ 1e-12 := by norm_num
            linarith
          · simp only [h1, h2, if_false]
            push Not at h2
            exact h2.2.le
      rcases key with k | k
      · exact hne (by rw [h3, k])
      · exact hg k
    · have hk : sv.killed (st1.p.tstep + 1) = false := by
        by_contra hk
        have := (afterIntegrate_killed sv st1 r (by simpa using hk)).1
        rw [ha] at this
        simp at this
      rw [afterIntegrate_alive sv st1 r hk] at ha
      simp only [hend, Prod.mk.injEq] at ha
      obtain ⟨ha1, ha2⟩ := ha
      rw [← hT]
      subst ha1
      simp only at *
      set q := outP st1 r
      by_contra hc
      unfold endPeriodic at ha2
      rw [if_neg hc] at ha2
      split_ifs at ha2 <;> simp at ha2
  · obtain ⟨st'', k1, k2, -, -, -, -, k4⟩ := solve_of_finished h1
    have := k4 hopen.1 hopen.2
    rw [this] at h
    rcases h with h | h
    · rw [this, h]
    · simp at h

/-- C28.  Under the same hypothesis on the integrator no state of the run, after however many steps and also when the
run is interrupted, is beyond `T + 1e-12`. -/
theorem C28_no_overshoot (sv : Solver S C D)
    (hint : ∀ p s c s' c' d took, sv.integrate p s c = some (s', c', d, took) → took ≤ max p.dt 0)
    (p : Params) (hdt : 0 ≤ p.dt) (s : S) (h5 : H5 D) (st : St S C D) (h : Seen sv (start sv p s h5) st) (hne : st.took ≠ []) :
    st.p.t ≤ p.T + 1e-12 := by
  have := h.inv (fun x => x.p.T = p.T ∧ (x.took = [] → 0 ≤ x.p.dt) ∧ (x.took ≠ [] → x.p.t ≤ p.T + 1e-12))
    ⟨rfl, fun _ => hdt, fun h => absurd rfl h⟩ (by
      intro x r ⟨hT, h0, h1⟩ hg hi
      obtain ⟨b1, b2, b3, -, -, -, b4, -⟩ := afterIntegrate_basic sv x r
      refine ⟨by rw [b3, hT], fun hh => by rw [b4] at hh; simp at hh, fun _ => ?_⟩
      have hr := hint x.p x.s x.c r.1 r.2.1 r.2.2.1 r.2.2.2 hi
      rw [b1]
      rcases le_total 0 x.p.dt with hd | hd
      · rw [max_eq_left hd] at hr
        rw [← hT]
        linarith
      · rw [max_eq_right hd] at hr
        by_cases ht : x.took = []
        · have := h0 ht
          have hd0 : x.p.dt = 0 := le_antisymm hd this
          rw [hd0, hT] at hg
          linarith
        · have := h1 ht
          linarith)
  exact this.2.2 hne

section Contract
variable {V : Type*} [AddCommGroup V] [Module ℝ V]

theorem adaptiveLoop_took (F : V → V → V) (T : Tableau) (q : ℕ) (fsal ad : Bool) (est : V → V → V → PyF)
    (hest : ∀ a b c, (est a b c).Nonneg) (tstep fuel : ℕ) : ∀ (facmax dt : ℝ) (st : RKArrays V) (rej : List ℝ) (res : RKResult V),
    1 / 100 ≤ facmax → adaptiveLoop F T q fsal ad est tstep fuel facmax dt st rej = some res → res.took ≤ max dt 0 := by
  induction fuel with
  | zero => intro _ _ _ _ _ _ h; simp [adaptiveLoop] at h
  | succ n ih =>
    intro facmax dt st rej res hf h
    simp only [adaptiveLoop] at h
    have hfac := stepFactor_eq facmax hf q (rkTrial F T fsal est tstep dt st).est (hest _ _ _)
    rw [hfac] at h
    simp only [PyF.toReal] at h
    by_cases h1 : ad = true
    · rw [if_pos h1] at h
      by_cases h2 : (rkTrial F T fsal est tstep dt st).est.Gt (PyF.fin 1)
      swap
      · rw [if_neg h2] at h
        injection h with h; subst h; exact le_max_left _ _
      rw [if_pos h2] at h
      refine (ih 1 _ _ _ _ (by norm_num) h).trans ?_
      have hle := Spec.factor_reject facmax q _ ((gt_one_iff _).1 h2)
      have hge := Spec.le_factor facmax hf q (rkTrial F T fsal est tstep dt st).est
      rcases le_total 0 dt with hd | hd
      · refine max_le_max ?_ le_rfl
        calc dt * Spec.factor facmax q (rkTrial F T fsal est tstep dt st).est ≤ dt * 1 :=
              mul_le_mul_of_nonneg_left (by linarith) hd
          _ = dt := mul_one _
      · rw [max_eq_right hd, max_eq_right]
        exact mul_nonpos_of_nonpos_of_nonneg hd (by linarith)
    · rw [if_neg h1] at h
      injection h with h; subst h; exact le_max_left _ _

/-- C28.  The hypothesis of `C28_no_overshoot` holds for every integrator of the code: RK4, ForwardEuler, AB2, BS5 with fixed
and with adaptive step, whatever the right-hand side and the error estimate. -/
theorem C28_contract (F : V → V → V) (est : V → V → V → PyF) (hest : ∀ a b c, (est a b c).Nonneg) (fuel : ℕ) (m : Method)
    (p : Params) (s : V) (c : Closure V) (s' : V) (c' : Closure V) (d took : ℝ)
    (h : methodIntegrate F est fuel m p s c = some (s', c', d, took)) : took ≤ max p.dt 0 := by
  unfold methodIntegrate at h
  rw [Option.map_eq_some_iff] at h
  obtain ⟨r, hr, he⟩ := h
  simp only [Prod.mk.injEq] at he
  obtain ⟨-, -, -, rfl⟩ := he
  cases m with
  | RK4 => simp only [integrate, RK4, Option.some.injEq] at hr; subst hr; exact le_max_left _ _
  | ForwardEuler => simp only [integrate, ForwardEuler, Option.some.injEq] at hr; subst hr; exact le_max_left _ _
  | AB2 => simp only [integrate, AB2, Option.some.injEq] at hr; subst hr; exact le_max_left _ _
  | BS5 a =>
    simp only [integrate, Option.map_eq_some_iff] at hr
    obtain ⟨res, h1, rfl⟩ := hr
    exact adaptiveLoop_took F bs5 4 true a est hest p.tstep fuel facmaxDefault p.dt _ [] res (by norm_num [facmaxDefault]) h1

end Contract

/-! ## C29 -/

/-- With `t + dt = T` the periodic loop does exactly one more step. -/
theorem loop_last (sv : Solver S C D) (hend : ∀ p s, sv.end_of_tstep p s = endPeriodic p s) (hfix : FixedStep sv)
    (hk : ∀ n, sv.killed n = false) (st : St S C D) (ht : st.p.t + st.p.dt = st.p.T) (fuel : ℕ) :
    ∃ st', loop sv (fuel + 1) st = .finished st' ∧ st'.took = st.took ++ [st.p.dt] ∧ st'.p.t = st.p.T := by
  obtain ⟨s', c', hi⟩ := hfix st.p st.s st.c
  have ha := afterIntegrate_alive sv st (s', c', st.p.dt, st.p.dt) (hk _)
  have hT : |(outP st (s', c', st.p.dt, st.p.dt)).t - (outP st (s', c', st.p.dt, st.p.dt)).T| < 1e-12 := by
    simp only [outP, ht, sub_self, abs_zero]; norm_num
  simp only [hend, endPeriodic, if_pos hT, Bool.not_true] at ha
  have hg : st.p.t + st.p.dt ≤ st.p.T + 1e-12 := by rw [ht]; norm_num
  refine ⟨_, loop_stop hg hi ha fuel, rfl, ?_⟩
  simp [outP, ht]

theorem loop_periodic (sv : Solver S C D) (hend : ∀ p s, sv.end_of_tstep p s = endPeriodic p s) (hfix : FixedStep sv)
    (hk : ∀ n, sv.killed n = false) (dt : ℝ) (m : ℕ) :
    ∀ (fuel : ℕ) (st : St S C D), m + 1 < fuel → st.p.dt = dt → st.p.t < st.p.T →
      st.p.t + dt ≤ st.p.T + 1e-12 → st.p.T - st.p.t ≤ m * dt →
      ∃ st' k l, loop sv fuel st = .finished st' ∧ st'.took = st.took ++ List.replicate k dt ++ l ∧ k + l.length ≤ m + 1 ∧
        1 ≤ k ∧ (l = [] ∨ l = [st.p.T - (st.p.t + k * dt)] ∧ st'.p.t = st.p.T) := by
  induction m with
  | zero =>
    intro fuel st _ _ ht _ hm
    simp at hm
    linarith
  | succ m ih =>
    intro fuel st hf hdt ht hg hm
    obtain ⟨f, rfl⟩ : ∃ f, fuel = f + 1 + 1 := ⟨fuel - 2, by omega⟩
    obtain ⟨s', c', hi⟩ := hfix st.p st.s st.c
    have hg' : st.p.t + st.p.dt ≤ st.p.T + 1e-12 := by rwa [hdt]
    set r := (s', c', st.p.dt, st.p.dt) with hr
    have ha := afterIntegrate_alive sv st r (hk _)
    have q1 : (outP st r).t = st.p.t + dt := by simp [outP, hr, hdt]
    have q2 : (outP st r).T = st.p.T := rfl
    have q3 : (outP st r).dt = dt := by simp [outP, hr, hdt]
    simp only [hend, endPeriodic, q1, q2, q3] at ha
    by_cases h1 : |st.p.t + dt - st.p.T| < 1e-12
    · simp only [if_pos h1, Bool.not_true] at ha
      refine ⟨_, 1, [], loop_stop hg' hi ha _, ?_, by simp, le_rfl, Or.inl rfl⟩
      simp [hr, hdt]
    · simp only [if_neg h1] at ha
      by_cases h2 : |st.p.t + dt + dt - st.p.T| < 1e-12 ∨ st.p.t + dt + dt ≥ st.p.T + 1e-12
      · simp only [if_pos h2, Bool.not_false] at ha
        rw [loop_step hg' hi ha (f + 1)]
        set st1 := (afterIntegrate sv st r).1 with hst1
        rw [ha] at hst1
        dsimp only at hst1
        rw [← hst1]
        have e1 : st1.p.t = st.p.t + dt := by rw [hst1]
        have e2 : st1.p.dt = st.p.T - (st.p.t + dt) := by rw [hst1]
        have e3 : st1.p.T = st.p.T := by rw [hst1]
        have e4 : st1.took = st.took ++ [dt] := by rw [hst1]; simp [hr, hdt]
        obtain ⟨st', k1, k2, k3⟩ := loop_last sv hend hfix hk st1 (by rw [e1, e2, e3]; ring) f
        refine ⟨st', 1, [st.p.T - (st.p.t + dt)], k1, ?_, by simp, le_rfl, Or.inr ⟨by simp, by rw [k3, e3]⟩⟩
        rw [k2, e4, e2]; rfl
      · simp only [if_neg h2, Bool.not_false] at ha
        rw [loop_step hg' hi ha (f + 1)]
        set st1 := (afterIntegrate sv st r).1 with hst1
        rw [ha] at hst1
        dsimp only at hst1
        rw [← hst1]
        have e1 : st1.p.t = st.p.t + dt := by rw [hst1]
        have e2 : st1.p.dt = dt := by rw [hst1]
        have e3 : st1.p.T = st.p.T := by rw [hst1]
        have e4 : st1.took = st.took ++ [dt] := by rw [hst1]; simp [hr, hdt]
        push Not at h2
        obtain ⟨h2, h3⟩ := h2
        have h4 : st.p.t + dt + dt - st.p.T ≤ -1e-12 := by
          by_contra h4
          push Not at h4
          rw [le_abs] at h2
          rcases h2 with h2 | h2 <;> linarith
        have hdt0 : 0 < dt := by
          have hT : 0 < st.p.T - st.p.t := by linarith
          by_contra hneg
          push Not at hneg
          have : ((m + 1 : ℕ) : ℝ) * dt ≤ 0 := mul_nonpos_of_nonneg_of_nonpos (by positivity) hneg
          linarith
        obtain ⟨st', k, l, k1, k2, k3, k4, k5⟩ := ih (f + 1) st1 (by omega) e2 (by
          rw [e1, e3]
          norm_num at h4
          linarith) (by rw [e1, e3]; linarith) (by
          rw [e1, e3]
          push_cast at hm
          linarith)
        refine ⟨st', k + 1, l, k1, ?_, by omega, by omega, ?_⟩
        · rw [k2, e4, List.replicate_succ]; simp
        · rcases k5 with k5 | ⟨k5, k6⟩
          · exact Or.inl k5
          · refine Or.inr ⟨?_, by rw [k6, e3]⟩
            rw [k5, e1, e3]
            push_cast
            ring_nf

/-- C29.  A periodic solver with a fixed-step integrator, `dt > 0`, `t0 < T`: `solve` ends after at most `ceil((T - t0)/dt) + 1`
steps; all of them have size `dt` except possibly one last step of size `T - (t0 + k dt)`, after which `t = T`
exactly. -/
theorem C29_bounded_steps (sv : Solver S C D) (hend : ∀ p s, sv.end_of_tstep p s = endPeriodic p s) (hfix : FixedStep sv)
    (hk : ∀ n, sv.killed n = false) (p : Params) (hdt : 0 < p.dt) (ht : p.t < p.T) (s : S) (h5 : H5 D) (fuel : ℕ)
    (hf : ⌈(p.T - p.t) / p.dt⌉₊ + 2 ≤ fuel) :
    ∃ st, (solve sv fuel p s h5).reachesClose st ∧ st.took.length ≤ ⌈(p.T - p.t) / p.dt⌉₊ + 1 ∧
      ∃ (k : ℕ) (l : List ℝ), st.took = List.replicate k p.dt ++ l ∧
        (l = [] ∨ l = [p.T - (p.t + k * p.dt)] ∧ st.p.t = p.T) := by
  by_cases hg : p.t + p.dt ≤ p.T + 1e-12
  · obtain ⟨st, k, l, h1, h2, h3, -, h5'⟩ := loop_periodic sv hend hfix hk p.dt ⌈(p.T - p.t) / p.dt⌉₊ fuel (start sv p s h5)
      (by omega) rfl ht hg (by
        show p.T - p.t ≤ _
        rw [← div_le_iff₀ hdt]
        exact Nat.le_ceil _)
    obtain ⟨st', k1, k2, k3, -⟩ := solve_of_finished h1
    refine ⟨st', k1, ?_, k, l, ?_, ?_⟩
    · rw [k3, h2]; simpa using h3
    · rw [k3, h2]; simp
    · rcases h5' with h | ⟨h, h'⟩
      · exact Or.inl h
      · exact Or.inr ⟨h, by rw [k2]; exact h'⟩
  · obtain ⟨f, rfl⟩ : ∃ f, fuel = f + 1 := ⟨fuel - 1, by omega⟩
    obtain ⟨st', k1, k2, k3, -⟩ := solve_of_finished (loop_guard (st := start sv p s h5) hg f)
    exact ⟨st', k1, by rw [k3]; simp, 0, [], by rw [k3]; simp, Or.inl rfl⟩

/-- The hypotheses are met, e.g. by a run from 0 to 1.05 with steps of 0.1 (eleven steps, the last one shorter); the run ends at
`T` by C28. -/
example : ∃ st, (solve (counter endPeriodic) 13 ⟨0, 0.1, 1.05, 0, 1, 1, true⟩ 0 ⟨false, false, ⟨⟨fun _ => none, 0, 0⟩, []⟩⟩).reachesClose st ∧
    st.took.length ≤ 12 := by
  have e : ⌈((1.05 : ℝ) - 0) / 0.1⌉₊ = 11 := by
    rw [Nat.ceil_eq_iff (by norm_num)]
    norm_num
  obtain ⟨st, h1, h2, -⟩ := C29_bounded_steps (counter endPeriodic) (fun _ _ => rfl) (fun p s c => ⟨_, _, rfl⟩) (fun _ => rfl)
    ⟨0, 0.1, 1.05, 0, 1, 1, true⟩ (by norm_num) (by norm_num) 0 ⟨false, false, ⟨⟨fun _ => none, 0, 0⟩, []⟩⟩ 13 (by rw [e])
  exact ⟨st, h1, by rw [e] at h2; exact h2⟩

end SpectralDNS.Solve

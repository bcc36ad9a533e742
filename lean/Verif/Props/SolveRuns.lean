import Verif.Props.Solve

/-!
# C30-C32: bookkeeping, runs without steps, split runs
-/

namespace SpectralDNS.Solve

variable {S C D : Type*}

/-! ## C30 -/

/-- What the parts of a solver can observe of being called; the number is `params.tstep` at the call. -/
inductive Event where
  | integrate (tstep : ℕ)
  | update (tstep : ℕ)
  | output
  | endOfTstep (tstep : ℕ)
  | regression (tstep : ℕ)

/-- The solver with all its parts instrumented: each call is appended to a log kept in the context.  `update_components` is
called from inside the file output, so `output` marks the file output of a step that writes results. -/
def logged (sv : Solver S C D) : Solver (S × List Event) C D where
  getintegrator s := sv.getintegrator s.1
  integrate p s c := (sv.integrate p s.1 c).map fun r => ((r.1, s.2 ++ [.integrate p.tstep]), r.2)
  update p s := (sv.update p s.1, s.2 ++ [.update p.tstep])
  update_components s := (sv.update_components s.1, s.2 ++ [.output])
  results s := sv.results s.1
  levels := sv.levels.map fun lv => (lv.1, fun s => lv.2 s.1)
  end_of_tstep p s :=
    let e := sv.end_of_tstep p s.1
    (e.1, (e.2.1, s.2 ++ [.endOfTstep p.tstep]), e.2.2)
  regression_test p s := (sv.regression_test p s.1, s.2 ++ [.regression p.tstep])
  killed := sv.killed

/-- The calls of the pass that starts with `tstep = n`: integrate, then update, then the output if due, then the end-of-step hook. -/
def stepLog (write_result n : ℕ) : List Event :=
  [.integrate n, .update (n + 1)] ++ (if (n + 1) % write_result = 0 then [.output] else []) ++ [.endOfTstep (n + 1)]

theorem reach_log (sv : Solver S C D) (p : Params) (s : S) (h5 : H5 D) (st : St (S × List Event) C D)
    (h : Reach (logged sv) (start (logged sv) p (s, []) h5) st) :
    st.p.tstep = p.tstep + st.took.length ∧ st.p.write_result = p.write_result ∧
    st.s.2 = (List.range st.took.length).flatMap fun k => stepLog p.write_result (p.tstep + k) := by
  refine h.inv (fun st => st.p.tstep = p.tstep + st.took.length ∧ st.p.write_result = p.write_result ∧
    st.s.2 = (List.range st.took.length).flatMap fun k => stepLog p.write_result (p.tstep + k)) ⟨rfl, rfl, rfl⟩ ?_
  rintro x r x' ⟨h1, h2, h3⟩ _ hi ha
  have hk : sv.killed (x.p.tstep + 1) = false := by
    by_contra hk
    have := (afterIntegrate_killed (logged sv) x r (by simpa [logged] using hk)).1
    rw [ha] at this
    simp at this
  have hb := afterIntegrate_basic (logged sv) x r
  have ha' := ha
  rw [afterIntegrate_alive (logged sv) x r hk] at ha
  rw [ha'] at hb
  obtain ⟨-, b2, -, b4, -, -, b7, -⟩ := hb
  simp only at b2 b4 b7
  refine ⟨by rw [b2, h1, b7]; simp; ring, by rw [b4, h2], ?_⟩
  have hs : x'.s.2 = x.s.2 ++ stepLog p.write_result x.p.tstep := by
    simp only [Prod.mk.injEq] at ha
    rw [← ha.1]
    simp only [logged, Option.map_eq_some_iff] at hi
    obtain ⟨r0, -, rfl⟩ := hi
    simp only [logged, h5update, resultState, outP, stepLog, h2]
    split_ifs <;> simp
  rw [hs, h3, b7, List.length_append, List.length_singleton, List.range_succ, List.flatMap_append, h1]
  simp

/-- C30.  Time, step counter and parameters after any run of any solver: `t` has advanced by the sum of the steps taken,
`tstep` by their number, `dt` and the other parameters are as before the call. -/
theorem C30_bookkeeping (sv : Solver S C D) (p : Params) (s : S) (h5 : H5 D) (fuel : ℕ) (st : St S C D)
    (h : (solve sv fuel p s h5).reachesClose st) :
    st.p = { p with t := p.t + st.took.sum, tstep := p.tstep + st.took.length } := by
  obtain ⟨st', h1, h2, h3, -⟩ := reachesClose_finished h
  have := (loop_finished_seen h1).inv (fun x => { x.p with dt := p.dt } =
      { p with t := p.t + x.took.sum, tstep := p.tstep + x.took.length }) (by simp) (by
    intro x r hx _ _
    obtain ⟨b1, b2, b3, b4, b5, b6, b7, -⟩ := afterIntegrate_basic sv x r
    simp only [Params.mk.injEq, true_and] at hx ⊢
    obtain ⟨a1, a3, a4, a5, a6, a7⟩ := hx
    rw [b1, b2, b3, b4, b5, b6, b7, a1, a3, a4, a5, a6, a7]
    refine ⟨?_, rfl, ?_, rfl, rfl, rfl⟩
    · rw [List.sum_append, List.sum_singleton]; ring
    · simp; ring)
  rw [h2, h3]
  exact this

/-- C30.  The order of calls, seen by a solver that logs all calls of its parts: in every step exactly one `integrate`, one
`update`, then the file output, then one end-of-step hook; after the last step one `regression_test`. -/
theorem C30_call_order (sv : Solver S C D) (p : Params) (s : S) (h5 : H5 D) (fuel : ℕ) (st : St (S × List Event) C D)
    (h : (solve (logged sv) fuel p (s, []) h5).reachesClose st) :
    st.s.2 = ((List.range st.took.length).flatMap fun k => stepLog p.write_result (p.tstep + k)) ++
      [.regression (p.tstep + st.took.length)] := by
  have hb := C30_bookkeeping _ _ _ _ _ _ h
  obtain ⟨st', h1, h2, h3, -, -, h6⟩ := reachesClose_finished h
  have key : st'.s.2 = (List.range st'.took.length).flatMap fun k => stepLog p.write_result (p.tstep + k) := by
    rcases loop_finished h1 with ⟨hr, -⟩ | ⟨x, r, hr, hg, hi, ha⟩
    · exact (reach_log sv p s h5 st' hr).2.2
    · obtain ⟨g1, g2, g3⟩ := reach_log sv p s h5 x hr
      have hk : sv.killed (x.p.tstep + 1) = false := by
        by_contra hk
        have := (afterIntegrate_killed (logged sv) x r (by simpa [logged] using hk)).1
        rw [ha] at this
        simp at this
      rw [afterIntegrate_alive (logged sv) x r hk] at ha
      simp only [Prod.mk.injEq] at ha
      have hs : st'.s.2 = x.s.2 ++ stepLog p.write_result x.p.tstep := by
        rw [← ha.1]
        simp only [logged, Option.map_eq_some_iff] at hi
        obtain ⟨r0, -, rfl⟩ := hi
        simp only [logged, h5update, resultState, outP, stepLog, g2]
        split_ifs <;> simp
      have ht : st'.took = x.took ++ [r.2.2.2] := by rw [← ha.1]
      rw [hs, g3, ht, List.length_append, List.length_singleton, List.range_succ, List.flatMap_append, g1]
      simp
  have hts : st.p.tstep = p.tstep + st.took.length := by rw [hb]
  rw [h6]
  simp only [logged]
  rw [key, hts, h3]

/-- Instrumenting does not change what one pass does. -/
theorem logged_afterIntegrate (sv : Solver S C D) (x : St (S × List Event) C D) (y : St S C D) (hp : x.p = y.p) (hs : x.s.1 = y.s)
    (hc : x.c = y.c) (hh : x.h5 = y.h5) (ht : x.took = y.took) (r : S × C × ℝ × ℝ) (l : List Event) :
    (afterIntegrate (logged sv) x ((r.1, l), r.2)).2 = (afterIntegrate sv y r).2 ∧
    (afterIntegrate (logged sv) x ((r.1, l), r.2)).1.p = (afterIntegrate sv y r).1.p ∧
    (afterIntegrate (logged sv) x ((r.1, l), r.2)).1.s.1 = (afterIntegrate sv y r).1.s ∧
    (afterIntegrate (logged sv) x ((r.1, l), r.2)).1.c = (afterIntegrate sv y r).1.c ∧
    (afterIntegrate (logged sv) x ((r.1, l), r.2)).1.h5 = (afterIntegrate sv y r).1.h5 ∧
    (afterIntegrate (logged sv) x ((r.1, l), r.2)).1.took = (afterIntegrate sv y r).1.took := by
  obtain ⟨xp, ⟨xs, xl⟩, xc, xh, xt, xo⟩ := x
  obtain ⟨yp, ys, yc, yh, yt, yo⟩ := y
  simp only at hp hs hc hh ht
  subst hp hs hc hh ht
  unfold afterIntegrate
  by_cases hw : (xp.tstep + 1) % xp.write_result = 0 <;> by_cases hk : sv.killed (xp.tstep + 1) = true <;>
    simp [logged, h5update, resultState, updateOps, resultOps, checkpointOps, hw, hk, List.flatMap_map]

theorem logged_loop (sv : Solver S C D) (fuel : ℕ) : ∀ (x : St (S × List Event) C D) (y : St S C D), x.p = y.p → x.s.1 = y.s →
    x.c = y.c → x.h5 = y.h5 → x.took = y.took → ∀ y', loop sv fuel y = .finished y' →
    ∃ x', loop (logged sv) fuel x = .finished x' ∧ x'.p = y'.p ∧ x'.s.1 = y'.s ∧ x'.h5 = y'.h5 ∧ x'.took = y'.took := by
  induction fuel with
  | zero => intro x y _ _ _ _ _ y' h; simp [loop] at h
  | succ n ih =>
    intro x y hp hs hc hh ht y' h
    rw [loop] at h ⊢
    by_cases hg : y.p.t + y.p.dt ≤ y.p.T + 1e-12
    · rw [if_pos hg] at h
      rw [hp, if_pos hg]
      rcases hi : sv.integrate y.p y.s y.c with _ | r
      · simp [hi] at h
      · have hi' : (logged sv).integrate y.p x.s x.c = some ((r.1, x.s.2 ++ [.integrate y.p.tstep]), r.2) := by
          simp [logged, hs, hc, hi]
        simp only [hi] at h
        simp only [hi']
        obtain ⟨e1, e2, e3, e4, e5, e6⟩ := logged_afterIntegrate sv x y hp hs hc hh ht r (x.s.2 ++ [.integrate y.p.tstep])
        rcases ha : afterIntegrate sv y r with ⟨y1, _ | _ | _⟩
        · simp [ha] at h
        · rw [ha] at e1 e2 e3 e4 e5 e6
          simp only [ha] at h
          injection h with h
          subst h
          refine ⟨_, ?_, e2, e3, e5, e6⟩
          rw [show afterIntegrate (logged sv) x ((r.1, x.s.2 ++ [.integrate y.p.tstep]), r.2) =
            ((afterIntegrate (logged sv) x ((r.1, x.s.2 ++ [.integrate y.p.tstep]), r.2)).1, some false) from Prod.ext rfl e1]
        · rw [ha] at e1 e2 e3 e4 e5 e6
          simp only [ha] at h
          rw [show afterIntegrate (logged sv) x ((r.1, x.s.2 ++ [.integrate y.p.tstep]), r.2) =
            ((afterIntegrate (logged sv) x ((r.1, x.s.2 ++ [.integrate y.p.tstep]), r.2)).1, some true) from Prod.ext rfl e1]
          exact ih _ y1 e2 e3 e4 e5 e6 y' h
    · rw [if_neg hg] at h
      rw [hp, if_neg hg]
      injection h with h
      subst h
      exact ⟨x, rfl, hp, hs, hh, ht⟩

/-- C30.  The log is faithful: whenever `solve` comes to its end for a solver, it does so for the instrumented solver, with
the same parameters, context, files and steps. -/
theorem C30_log_faithful (sv : Solver S C D) (p : Params) (s : S) (h5 : H5 D) (fuel : ℕ) (st : St S C D)
    (h : (solve sv fuel p s h5).reachesClose st) :
    ∃ st', (solve (logged sv) fuel p (s, []) h5).reachesClose st' ∧ st'.p = st.p ∧ st'.s.1 = st.s ∧ st'.h5 = st.h5 ∧
      st'.took = st.took := by
  obtain ⟨y, h1, h2, h3, -, h5', h6⟩ := reachesClose_finished h
  obtain ⟨x, g1, g2, g3, g4, g5⟩ := logged_loop sv fuel (start (logged sv) p (s, []) h5) (start sv p s h5) rfl rfl rfl rfl rfl y h1
  obtain ⟨st', k1, k2, k3, -, k5, k6, -⟩ := solve_of_finished g1
  have hp : st'.p = st.p := by rw [k2, h2, g2]
  refine ⟨st', k1, hp, ?_, by rw [k5, g4, h5'], by rw [k3, g5, h3]⟩
  rw [k6, h6, hp]
  simp [logged, g3]

/-! ## C31 -/

/-- C31, finding.  The property is false of the code: with a context whose files have not been created, calling `solve` when no step is
needed always ends in an exception (in `hdf5file.close()`), after `regression_test` and with the parameters unchanged. -/
theorem C31_zero_step_false (sv : Solver S C D) (p : Params) (s : S) (h5 : H5 D) (hg : p.T + 1e-12 < p.t + p.dt)
    (hc : h5.cfile = false) (fuel : ℕ) :
    ∃ st, solve sv (fuel + 1) p s h5 = .crashedInClose st ∧ st.p = p ∧ st.s = sv.regression_test p s ∧ st.h5 = h5 := by
  have hl := loop_guard (sv := sv) (st := start sv p s h5) (not_le.2 hg) fuel
  obtain ⟨st, k1, k2, -, -, k5, k6, -⟩ := solve_of_finished hl
  have hp : st.p = p := by rw [k2]
  refine ⟨st, ?_, hp, by rw [k6, hp], by rw [k5]⟩
  rcases k1 with k1 | k1
  · exfalso
    unfold solve at k1
    simp only [hl, h5close, hc, Bool.false_eq_true, false_and, if_false] at k1
    cases k1
  · exact k1

/-- C31, the part that holds: if the files exist already (an earlier `solve` with at least one step on the same context), a call
that needs no step returns, with parameters, files and (up to `regression_test`) state unchanged. -/
theorem C31_zero_step_partial (sv : Solver S C D) (p : Params) (s : S) (h5 : H5 D) (hg : p.T + 1e-12 < p.t + p.dt)
    (hc : h5.cfile = true) (hw : h5.wfile = true) (fuel : ℕ) :
    ∃ st, solve sv (fuel + 1) p s h5 = .returned st ∧ st.p = p ∧ st.s = sv.regression_test p s ∧ st.h5 = h5 ∧ st.took = [] := by
  have hl := loop_guard (sv := sv) (st := start sv p s h5) (not_le.2 hg) fuel
  obtain ⟨st, k1, k2, k3, -, k5, k6, k7⟩ := solve_of_finished hl
  have hp : st.p = p := by rw [k2]
  exact ⟨st, k7 hc hw, hp, by rw [k6, hp], by rw [k5], by rw [k3]⟩

/-- Both situations occur: `T - t = 0.05 < dt = 0.1`. -/
example : ∃ st, solve (counter endPeriodic) 5 ⟨1, 0.1, 1.05, 10, 1, 1, true⟩ 7 ⟨false, false, ⟨⟨fun _ => none, 0, 0⟩, []⟩⟩ =
    .crashedInClose st ∧ st.s = 7 := by
  obtain ⟨st, h, -, h2, -⟩ := C31_zero_step_false (counter endPeriodic) ⟨1, 0.1, 1.05, 10, 1, 1, true⟩ 7
    ⟨false, false, ⟨⟨fun _ => none, 0, 0⟩, []⟩⟩ (by norm_num) rfl 4
  exact ⟨st, h, h2⟩

example : ∃ st, solve (counter endPeriodic) 5 ⟨1, 0.1, 1.05, 10, 1, 1, true⟩ 7 ⟨true, true, ⟨⟨fun _ => none, 0, 0⟩, []⟩⟩ =
    .returned st ∧ st.s = 7 := by
  obtain ⟨st, h, -, h2, -⟩ := C31_zero_step_partial (counter endPeriodic) ⟨1, 0.1, 1.05, 10, 1, 1, true⟩ 7
    ⟨true, true, ⟨⟨fun _ => none, 0, 0⟩, []⟩⟩ (by norm_num) rfl rfl 4
  exact ⟨st, h, h2⟩

end SpectralDNS.Solve

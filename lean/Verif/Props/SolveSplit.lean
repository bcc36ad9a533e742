import Verif.Props.SolveRuns
import Verif.Props.FixedStep

/-!
# C32: splitting a run
-/

namespace SpectralDNS.Solve

variable {S C D : Type*}

/-- Nothing that a step does depends on the content of the integrator's closure or on the end time. -/
structure Memoryless (sv : Solver S C D) : Prop where
  integrate : ∀ p T s c c', (sv.integrate { p with T := T } s c).map (fun r => (r.1, r.2.2)) =
    (sv.integrate p s c').map fun r => (r.1, r.2.2)
  update : ∀ p T s, sv.update { p with T := T } s = sv.update p s

/-- Equal up to the closure, the history variables, `T` and `dt`. -/
structure Same (x y : St S C D) : Prop where
  t : x.p.t = y.p.t
  tstep : x.p.tstep = y.p.tstep
  wr : x.p.write_result = y.p.write_result
  cp : x.p.checkpoint = y.p.checkpoint
  tr : x.p.truncate = y.p.truncate
  s : x.s = y.s
  h5 : x.h5 = y.h5

theorem Params.eq_with {p q : Params} (h1 : p.t = q.t) (h2 : p.dt = q.dt) (h3 : p.tstep = q.tstep)
    (h4 : p.write_result = q.write_result) (h5 : p.checkpoint = q.checkpoint) (h6 : p.truncate = q.truncate) :
    q = { p with T := q.T } := by
  cases p; cases q; simp_all

/-- The file output does not look at `T` and `dt`. -/
theorem h5update_congr (sv : Solver S C D) {p q : Params} (s : S) (h5 : H5 D) (h1 : p.t = q.t) (h3 : p.tstep = q.tstep)
    (h4 : p.write_result = q.write_result) (h5' : p.checkpoint = q.checkpoint) (h6 : p.truncate = q.truncate) :
    h5update sv p s h5 = h5update sv q s h5 := by
  simp only [h5update, resultState, updateOps, openOps, resultOps, checkpointOps, h1, h3, h4, h5', h6]

/-- One pass on two such states, for hooks whose effect on the context does not depend on `T` and `dt`. -/
theorem Same.pass {sv : Solver S C D} (hm : Memoryless sv) {x y : St S C D} (h : Same x y) (hd : x.p.dt = y.p.dt)
    {r : S × C × ℝ × ℝ} (hi : sv.integrate x.p x.s x.c = some r) :
    ∃ r', sv.integrate y.p y.s y.c = some r' ∧ r'.2.2 = r.2.2 ∧
      (h5update sv (outP x r) (sv.update (outP x r) r.1) x.h5) = (h5update sv (outP y r') (sv.update (outP y r') r'.1) y.h5) := by
  have hp := Params.eq_with h.t hd h.tstep h.wr h.cp h.tr
  have h1 := hm.integrate x.p y.p.T x.s y.c x.c
  rw [← hp, h.s, ← h.s, hi] at h1
  rw [Option.map_some, Option.map_eq_some_iff] at h1
  obtain ⟨r', h2, h3⟩ := h1
  simp only [Prod.mk.injEq] at h3
  refine ⟨r', by rw [← h.s]; exact h2, h3.2, ?_⟩
  have ho : outP y r' = { outP x r with T := y.p.T } := by
    have e1 := h.t; have e2 := h.tstep; have e3 := h.wr; have e4 := h.cp; have e5 := h.tr
    simp only [outP, Params.mk.injEq, true_and]
    rw [h3.2, e1, e2, e3, e4, e5]
    simp
  have hu : sv.update (outP y r') r'.1 = sv.update (outP x r) r.1 := by
    rw [ho, h3.1]
    exact hm.update _ _ _
  rw [hu, h.h5, ho]
  exact h5update_congr sv _ _ rfl rfl rfl rfl rfl

/-- One pass on two such states gives two such states. -/
theorem Same.after {sv : Solver S C D} (hm : Memoryless sv) (hk : ∀ n, sv.killed n = false)
    (hctx : ∀ p q s, (sv.end_of_tstep p s).2.1 = (sv.end_of_tstep q s).2.1) {x y : St S C D} (h : Same x y)
    (hd : x.p.dt = y.p.dt) {r : S × C × ℝ × ℝ} (hi : sv.integrate x.p x.s x.c = some r) :
    ∃ r' s', sv.integrate y.p y.s y.c = some r' ∧ r'.2.2 = r.2.2 ∧ Same (afterIntegrate sv x r).1 (afterIntegrate sv y r').1 ∧
      (afterIntegrate sv x r).1.p.dt = (sv.end_of_tstep (outP x r) s').1 ∧
      (afterIntegrate sv y r').1.p.dt = (sv.end_of_tstep (outP y r') s').1 ∧
      (afterIntegrate sv x r).2 = some (!(sv.end_of_tstep (outP x r) s').2.2) ∧
      (afterIntegrate sv y r').2 = some (!(sv.end_of_tstep (outP y r') s').2.2) := by
  obtain ⟨r', hi', hr', ho⟩ := h.pass hm hd hi
  obtain ⟨b1, b2, b3, b4, b5, b6, b7, -⟩ := afterIntegrate_basic sv x r
  obtain ⟨c1, c2, c3, c4, c5, c6, c7, -⟩ := afterIntegrate_basic sv y r'
  have ha := afterIntegrate_alive sv x r (hk _)
  have hb := afterIntegrate_alive sv y r' (hk _)
  simp only [ho] at ha
  simp only at hb
  refine ⟨r', (h5update sv (outP y r') (sv.update (outP y r') r'.1) y.h5).1, hi', hr', ⟨?_, ?_, ?_, ?_, ?_, ?_, ?_⟩, ?_, ?_, ?_, ?_⟩
  · rw [b1, c1, h.t, hr']
  · rw [b2, c2, h.tstep]
  · rw [b4, c4, h.wr]
  · rw [b5, c5, h.cp]
  · rw [b6, c6, h.tr]
  · rw [ha, hb]; exact hctx _ _ _
  · rw [ha, hb]
  · rw [ha]
  · rw [hb]
  · rw [ha]
  · rw [hb]

/-- Two loops with the same end time started from such states end in such states. -/
theorem loop_same {sv : Solver S C D} (hm : Memoryless sv)
    (hk : ∀ n, sv.killed n = false) (hctx : ∀ p q s, (sv.end_of_tstep p s).2.1 = (sv.end_of_tstep q s).2.1)
    (hend : ∀ p q s, p.t = q.t → p.dt = q.dt → p.T = q.T → sv.end_of_tstep p s = sv.end_of_tstep q s) (fuel : ℕ) :
    ∀ (x y : St S C D), Same x y → x.p.dt = y.p.dt → x.p.T = y.p.T → ∀ x', loop sv fuel x = .finished x' →
    ∃ y' l, loop sv fuel y = .finished y' ∧ Same x' y' ∧ x'.p.T = y'.p.T ∧ x'.took = x.took ++ l ∧ y'.took = y.took ++ l := by
  induction fuel with
  | zero => intro x y _ _ _ x' h; simp [loop] at h
  | succ n ih =>
    intro x y hs hd hT x' h
    by_cases hg : x.p.t + x.p.dt ≤ x.p.T + 1e-12
    · have hg' : y.p.t + y.p.dt ≤ y.p.T + 1e-12 := by rwa [← hs.t, ← hd, ← hT]
      rcases hi : sv.integrate x.p x.s x.c with _ | r
      · rw [loop, if_pos hg] at h
        simp [hi] at h
      · obtain ⟨r', s', hi', hr', hsame, d1, d2, f1, f2⟩ := hs.after hm hk hctx hd hi
        have he : sv.end_of_tstep (outP x r) s' = sv.end_of_tstep (outP y r') s' :=
          hend _ _ _ (by simp [outP, hs.t, hr']) (by simp [outP, hr']) hT
        rw [he] at d1 f1
        have hdt := d1.trans d2.symm
        have h2 := f1.trans f2.symm
        obtain ⟨-, -, b3, -, -, -, b7, -⟩ := afterIntegrate_basic sv x r
        obtain ⟨-, -, c3, -, -, -, c7, -⟩ := afterIntegrate_basic sv y r'
        rw [hr'] at c7
        rcases hx : afterIntegrate sv x r with ⟨x1, _ | _ | _⟩
        · rw [hx] at f1; simp at f1
        · rw [hx] at h2 hsame hdt b3 b7
          rw [loop_stop hg hi hx] at h
          injection h with h
          subst h
          exact ⟨_, [r.2.2.2], loop_stop hg' hi' (Prod.ext rfl h2.symm) n, hsame, by rw [b3, c3, hT], b7, c7⟩
        · rw [hx] at h2 hsame hdt b3 b7
          rw [loop_step hg hi hx] at h
          rw [loop_step hg' hi' (Prod.ext rfl h2.symm : afterIntegrate sv y r' = ((afterIntegrate sv y r').1, some true))]
          obtain ⟨y', l, k1, k2, k3, k4, k5⟩ := ih _ _ hsame hdt (by rw [b3, c3, hT]) x' h
          exact ⟨y', r.2.2.2 :: l, k1, k2, k3, by rw [k4, b7]; simp, by rw [k5, c7]; simp⟩
    · have hg' : ¬ y.p.t + y.p.dt ≤ y.p.T + 1e-12 := by rwa [← hs.t, ← hd, ← hT]
      rw [loop_guard hg] at h
      injection h with h
      subst h
      exact ⟨y, [], loop_guard hg' n, hs, hT, by simp, by simp⟩

theorem endPeriodic_stop {p : Params} (s : S) (h : p.t = p.T) : endPeriodic p s = (p.dt, s, true) := by
  rw [endPeriodic, if_pos]
  rw [h, sub_self, abs_zero]; norm_num

theorem endPeriodic_go {p : Params} (s : S) (hdt : 2e-12 ≤ p.dt) (h : p.t + p.dt ≤ p.T - 1e-12 ∨ p.t + p.dt = p.T) :
    endPeriodic p s = (p.dt, s, false) := by
  have h12 : (0 : ℝ) < 1e-12 := by norm_num
  have h2e : (2e-12 : ℝ) = 2 * 1e-12 := by norm_num
  rw [h2e] at hdt
  unfold endPeriodic
  generalize (1e-12 : ℝ) = ε at *
  rw [if_neg (by rw [not_lt, le_abs]; right; rcases h with h | h <;> linarith)]
  rcases h with h | h
  · rw [if_neg]
    push Not
    exact ⟨by rw [le_abs]; right; linarith, by linarith⟩
  · by_cases hc : |p.t + p.dt - p.T| < ε ∨ p.t + p.dt ≥ p.T + ε
    · rw [if_pos hc, ← h]; simp
    · rw [if_neg hc]

/-- The first part of a split periodic run against the direct run. -/
theorem first_part_periodic {sv : Solver S C D} (hm : Memoryless sv) (hk : ∀ n, sv.killed n = false)
    (hend : ∀ p s, sv.end_of_tstep p s = endPeriodic p s) (hfix : FixedStep sv) (dt : ℝ) (hdt : 2e-12 ≤ dt) (n : ℕ) :
    ∀ (x y : St S C D), Same x y → x.p.dt = dt → y.p.dt = dt → x.p.T = x.p.t + (n + 1 : ℕ) * dt →
      (x.p.T + dt ≤ y.p.T - 1e-12 ∨ x.p.T + dt = y.p.T) → ∀ fuel,
    ∃ x' y' l, loop sv (fuel + n + 1) x = .finished x' ∧ (∀ f, loop sv (f + n + 1) y = loop sv f y') ∧ Same x' y' ∧ y'.p.dt = dt ∧
      y'.p.T = y.p.T ∧ x'.took = x.took ++ l ∧ y'.took = y.took ++ l := by
  have h12 : (0 : ℝ) < 1e-12 := by norm_num
  have h2e : (2e-12 : ℝ) = 2 * 1e-12 := by norm_num
  have hdt' := hdt
  rw [h2e] at hdt'
  have hctx : ∀ p q s, (sv.end_of_tstep p s).2.1 = (sv.end_of_tstep q s).2.1 := by
    intro p q s
    simp only [hend, endPeriodic]
    split_ifs <;> rfl
  induction n with
  | zero =>
    intro x y hs hx hy hT hT2 fuel
    simp only [zero_add, Nat.cast_one, one_mul] at hT
    obtain ⟨s', c', hi⟩ := hfix x.p x.s x.c
    rw [hx] at hi
    obtain ⟨r', s'', hi', hr', hsame, d1, d2, f1, f2⟩ := hs.after hm hk hctx (by rw [hx, hy]) hi
    obtain ⟨-, -, b3, -, -, -, b7, -⟩ := afterIntegrate_basic sv x (s', c', dt, dt)
    obtain ⟨-, -, c3, -, -, -, c7, -⟩ := afterIntegrate_basic sv y r'
    have hg : x.p.t + x.p.dt ≤ x.p.T + 1e-12 := by rw [hx]; linarith
    have hg' : y.p.t + y.p.dt ≤ y.p.T + 1e-12 := by rw [hy, ← hs.t]; rcases hT2 with h | h <;> linarith
    have o1 : (outP y r').t = x.p.T := by rw [hT, hs.t]; simp [outP, hr']
    have o2 : (outP y r').dt = dt := by simp [outP, hr']
    rw [hend, endPeriodic_stop _ hT.symm] at f1
    rw [hend, endPeriodic_go _ (by rw [o2]; exact hdt) (by rw [o1, o2]; exact hT2)] at f2 d2
    rw [hr'] at c7
    exact ⟨_, _, [dt], loop_stop hg hi (Prod.ext rfl f1) _, fun f => loop_step hg' hi' (Prod.ext rfl f2) f, hsame,
      by rw [d2, o2], c3, b7, c7⟩
  | succ n ih =>
    intro x y hs hx hy hT hT2 fuel
    have hn : (0 : ℝ) ≤ n * dt := mul_nonneg (Nat.cast_nonneg _) (by linarith)
    push_cast at hT
    obtain ⟨s', c', hi⟩ := hfix x.p x.s x.c
    rw [hx] at hi
    obtain ⟨r', s'', hi', hr', hsame, d1, d2, f1, f2⟩ := hs.after hm hk hctx (by rw [hx, hy]) hi
    obtain ⟨b1, -, b3, -, -, -, b7, -⟩ := afterIntegrate_basic sv x (s', c', dt, dt)
    obtain ⟨-, -, c3, -, -, -, c7, -⟩ := afterIntegrate_basic sv y r'
    have hg : x.p.t + x.p.dt ≤ x.p.T + 1e-12 := by rw [hx]; linarith
    have hg' : y.p.t + y.p.dt ≤ y.p.T + 1e-12 := by rw [hy, ← hs.t]; rcases hT2 with h | h <;> linarith
    have o1 : (outP y r').t = x.p.t + dt := by rw [hs.t]; simp [outP, hr']
    have o2 : (outP y r').dt = dt := by simp [outP, hr']
    have o3 : (outP y r').T = y.p.T := rfl
    have q1 : (outP x (s', c', dt, dt)).t = x.p.t + dt := rfl
    have q2 : (outP x (s', c', dt, dt)).dt = dt := rfl
    have q3 : (outP x (s', c', dt, dt)).T = x.p.T := rfl
    rw [hend, endPeriodic_go _ (by rw [q2]; exact hdt) (by
      rw [q1, q2, q3]
      rcases Nat.eq_zero_or_pos n with h0 | h0
      · right; rw [hT, h0]; push_cast; ring
      · left
        have : (1 : ℝ) * dt ≤ n * dt := mul_le_mul_of_nonneg_right (by exact_mod_cast h0) (by linarith)
        linarith)] at f1 d1
    rw [hend, endPeriodic_go _ (by rw [o2]; exact hdt) (by
      rw [o1, o2, o3]
      left
      rcases hT2 with h | h <;> linarith)] at f2 d2
    rw [hr'] at c7
    obtain ⟨x', y', l, k1, k2, k3, k4, k5, k6, k7⟩ := ih _ _ hsame (by rw [d1, q2]) (by rw [d2, o2]) (by
      rw [b3, b1, hT]; push_cast; ring) (by rw [b3, c3]; exact hT2) fuel
    refine ⟨x', y', dt :: l, ?_, fun f => ?_, k3, k4, by rw [k5, c3], by rw [k6, b7]; simp, by rw [k7, c7]; simp⟩
    · rw [← add_assoc, loop_step hg hi (Prod.ext rfl f1 : afterIntegrate sv x _ = (_, some true))]; exact k1
    · rw [← add_assoc, loop_step hg' hi' (Prod.ext rfl f2 : afterIntegrate sv y r' = (_, some true))]; exact k2 f

/-- C32.  Splitting a periodic run with a memoryless fixed-step integrator: from `(t0, dt)` solve to `T1 = t0 + n dt` (`n ≥ 1`) and
then, on the same context, to `T`.  If the second part is at least one full step (up to the tolerance the code itself uses), the
two calls give the same context, the same parameters (`t`, `tstep`, `dt`), the same sequence of step sizes and the same files as
one call solving to `T`. -/
theorem C32_split_periodic (sv : Solver S C D) (hm : Memoryless sv) (hfix : FixedStep sv) (hk : ∀ n, sv.killed n = false)
    (hend : ∀ p s, sv.end_of_tstep p s = endPeriodic p s) (hreg : ∀ p s, sv.regression_test p s = s)
    (p : Params) (hdt : 2e-12 ≤ p.dt) (s : S) (h5 : H5 D) (n : ℕ) (hn : 1 ≤ n) (T : ℝ)
    (hT : p.t + n * p.dt + p.dt ≤ T - 1e-12 ∨ p.t + n * p.dt + p.dt = T) (f1 f2 : ℕ) (st1 st2 : St S C D)
    (h1 : solve sv (f1 + n) { p with T := p.t + n * p.dt } s h5 = .returned st1)
    (h2 : solve sv f2 { st1.p with T := T } st1.s st1.h5 = .returned st2) :
    ∃ st, solve sv (f2 + n) { p with T := T } s h5 = .returned st ∧ st.s = st2.s ∧ st.p = st2.p ∧ st.h5 = st2.h5 ∧
      st.took = st1.took ++ st2.took := by
  obtain ⟨m, rfl⟩ : ∃ m, n = m + 1 := ⟨n - 1, by omega⟩
  obtain ⟨x1, l1, a2, a3, -, a5, a6⟩ := reachesClose_finished (Or.inl h1)
  obtain ⟨x2, l2, b2, b3, -, b5, b6⟩ := reachesClose_finished (Or.inl h2)
  obtain ⟨x', y', l, k1, k2, k3, k4, k5, k6, k7⟩ := first_part_periodic hm hk hend hfix p.dt hdt m
    (start sv { p with T := p.t + (m + 1 : ℕ) * p.dt } s h5) (start sv { p with T := T } s h5) ⟨rfl, rfl, rfl, rfl, rfl, rfl, rfl⟩ rfl rfl rfl
    hT f1
  rw [add_assoc, l1] at k1
  injection k1 with k1
  subst k1
  have hctx : ∀ p q s, (sv.end_of_tstep p s).2.1 = (sv.end_of_tstep q s).2.1 := by
    intro p q s
    simp only [hend, endPeriodic]
    split_ifs <;> rfl
  obtain ⟨z, l', m1, m2, m3, m4, m5⟩ := loop_same hm hk hctx
    (fun p q s e1 e2 e3 => by simp only [hend, endPeriodic, e1, e2, e3]) f2
    (start sv { st1.p with T := T } st1.s st1.h5) y'
    ⟨by rw [a2]; exact k3.t, by rw [a2]; exact k3.tstep, by rw [a2]; exact k3.wr, by rw [a2]; exact k3.cp, by rw [a2]; exact k3.tr,
      by rw [a6, hreg]; exact k3.s, by rw [a5]; exact k3.h5⟩ (by rw [a2, k4]) (by rw [k5]) x2 l2
  have hl : loop sv (f2 + (m + 1)) (start sv { p with T := T } s h5) = .finished z := by
    rw [← add_assoc, k2, m1]
  obtain ⟨st, c1, c2, c3, -, c5, c6, c7⟩ := solve_of_finished hl
  have hopen : z.h5.cfile = true ∧ z.h5.wfile = true := by
    rw [← m2.h5, ← b5]
    by_contra hc
    unfold solve at h2
    simp only [l2, h5close, ← b5, hc, if_false] at h2
    cases h2
  refine ⟨st, c7 hopen.1 hopen.2, ?_, ?_, ?_, ?_⟩
  · rw [c6, hreg, b6, hreg, m2.s]
  · have hd1 : st1.p.dt = p.dt := by rw [a2]
    rw [c2, b2]
    simp only [hd1]
    have e1 := m2.t; have e2 := m2.tstep; have e3 := m2.wr; have e4 := m2.cp; have e5 := m2.tr
    rw [e1, e2, e3, e4, e5, m3]
  · rw [c5, b5, m2.h5]
  · rw [c3, a3, b3, m5, m4, k7, k6]; simp

section Methods
variable {V : Type*} [AddCommGroup V] [Module ℝ V]

/-- A periodic solver with one of the integrators of the code.  The context is the primary variable; `update` is a callback that
may change it. -/
noncomputable def methodSolver (F : V → V → V) (est : V → V → V → PyF) (fuel : ℕ) (m : Method) (rhs : V) (update : V → V)
    (levels : List (ℕ × (V → D))) (results : V → D) : Solver V (Closure V) D where
  getintegrator s := SpectralDNS.getintegrator rhs s
  integrate := methodIntegrate F est fuel m
  update _ s := update s
  update_components s := s
  results := results
  levels := levels
  end_of_tstep := endPeriodic
  regression_test _ s := s
  killed _ := false

/-- RK4 and ForwardEuler keep nothing in the closure. -/
theorem memoryless_method (F : V → V → V) (f : V → V) (hF : ∀ r u, F r u = f u) (est : V → V → V → PyF) (fuel : ℕ)
    (m : Method) (hm : m = .RK4 ∨ m = .ForwardEuler) (rhs : V) (update : V → V) (levels : List (ℕ × (V → D))) (results : V → D) :
    Memoryless (methodSolver F est fuel m rhs update levels results) ∧
    FixedStep (methodSolver F est fuel m rhs update levels results) := by
  have key : ∀ p s c, ∃ c', methodIntegrate F est fuel m p s c =
      some ((if m matches .RK4 then Spec.rk4 f p.dt s else s + p.dt • f s), c', p.dt, p.dt) := by
    intro p s c
    rcases hm with rfl | rfl
    · obtain ⟨c', h, e⟩ := C17_rk4_classical F f hF est fuel .RK4 rfl p.dt p.tstep { c with u0 := s }
      refine ⟨c', ?_⟩
      simp only [methodIntegrate, h, Option.map_some]
      rw [e]
      rfl
    · refine ⟨{ c with u0 := s + p.dt • f s, rhs := f s }, ?_⟩
      simp [methodIntegrate, integrate, ForwardEuler, hF]
  refine ⟨⟨fun p T s c c' => ?_, fun _ _ _ => rfl⟩, fun p s c => ?_⟩
  · obtain ⟨c1, h1⟩ := key { p with T := T } s c
    obtain ⟨c2, h2⟩ := key p s c'
    simp only [methodSolver, h1, h2, Option.map_some]
  · obtain ⟨c', h⟩ := key p s c
    exact ⟨_, c', h⟩

/-- C32 for the integrators RK4 and ForwardEuler of the code, any right-hand side that does not read the old content of its output
array, any callback. -/
theorem C32_split_methods (F : V → V → V) (f : V → V) (hF : ∀ r u, F r u = f u) (est : V → V → V → PyF) (fuel : ℕ)
    (m : Method) (hm : m = .RK4 ∨ m = .ForwardEuler) (rhs : V) (update : V → V) (levels : List (ℕ × (V → D))) (results : V → D)
    (p : Params) (hdt : 2e-12 ≤ p.dt) (s : V) (h5 : H5 D) (n : ℕ) (hn : 1 ≤ n) (T : ℝ)
    (hT : p.t + n * p.dt + p.dt ≤ T - 1e-12 ∨ p.t + n * p.dt + p.dt = T) (f1 f2 : ℕ) (st1 st2 : St V (Closure V) D)
    (h1 : solve (methodSolver F est fuel m rhs update levels results) (f1 + n) { p with T := p.t + n * p.dt } s h5 = .returned st1)
    (h2 : solve (methodSolver F est fuel m rhs update levels results) f2 { st1.p with T := T } st1.s st1.h5 = .returned st2) :
    ∃ st, solve (methodSolver F est fuel m rhs update levels results) (f2 + n) { p with T := T } s h5 = .returned st ∧
      st.s = st2.s ∧ st.p = st2.p ∧ st.h5 = st2.h5 ∧ st.took = st1.took ++ st2.took := by
  obtain ⟨a, b⟩ := memoryless_method F f hF est fuel m hm rhs update levels results
  exact C32_split_periodic _ a b (fun _ => rfl) (fun _ _ => rfl) (fun _ _ => rfl) p hdt s h5 n hn T hT f1 f2 st1 st2 h1 h2

end Methods

/-- The first part of a split channel run against the direct run. -/
theorem first_part_channel {sv : Solver S C D} (hm : Memoryless sv) (hk : ∀ n, sv.killed n = false) (rotate : S → S)
    (hend : ∀ p s, sv.end_of_tstep p s = endChannel rotate p s) (hfix : FixedStep sv) (dt : ℝ) (hdt : 1e-12 < dt) (n : ℕ) :
    ∀ (x y : St S C D), Same x y → x.p.dt = dt → y.p.dt = dt → x.p.T = x.p.t + n * dt → x.p.T ≤ y.p.T → ∀ fuel,
    ∃ x' y' l, loop sv (fuel + n + 1) x = .finished x' ∧ (∀ f, loop sv (f + n) y = loop sv f y') ∧ Same x' y' ∧ y'.p.dt = dt ∧
      y'.p.T = y.p.T ∧ x'.took = x.took ++ l ∧ y'.took = y.took ++ l := by
  have h12 : (0 : ℝ) < 1e-12 := by norm_num
  have hctx : ∀ p q s, (sv.end_of_tstep p s).2.1 = (sv.end_of_tstep q s).2.1 := fun p q s => by
    simp only [hend, endChannel]
  induction n with
  | zero =>
    intro x y hs hx hy hT hT2 fuel
    refine ⟨x, y, [], loop_guard ?_ _, fun f => rfl, hs, hy, rfl, by simp, by simp⟩
    simp only [Nat.cast_zero, zero_mul, add_zero] at hT
    rw [hx, hT, not_le]
    linarith
  | succ n ih =>
    intro x y hs hx hy hT hT2 fuel
    have hn : (0 : ℝ) ≤ n * dt := mul_nonneg (Nat.cast_nonneg _) (by linarith)
    push_cast at hT
    obtain ⟨s', c', hi⟩ := hfix x.p x.s x.c
    rw [hx] at hi
    obtain ⟨r', s'', hi', hr', hsame, d1, d2, f1, f2⟩ := hs.after hm hk hctx (by rw [hx, hy]) hi
    obtain ⟨b1, -, b3, -, -, -, b7, -⟩ := afterIntegrate_basic sv x (s', c', dt, dt)
    obtain ⟨-, -, c3, -, -, -, c7, -⟩ := afterIntegrate_basic sv y r'
    have hg : x.p.t + x.p.dt ≤ x.p.T + 1e-12 := by rw [hx]; linarith
    have hg' : y.p.t + y.p.dt ≤ y.p.T + 1e-12 := by rw [hy, ← hs.t]; linarith
    simp only [hend, endChannel, Bool.not_false] at d1 d2 f1 f2
    rw [hr'] at c7
    obtain ⟨x', y', l, k1, k2, k3, k4, k5, k6, k7⟩ := ih _ _ hsame (by rw [d1]; rfl) (by rw [d2]; simp [outP, hr']) (by
      rw [b3, b1, hT]; ring) (by rw [b3, c3]; exact hT2) fuel
    refine ⟨x', y', dt :: l, ?_, fun f => ?_, k3, k4, by rw [k5, c3], by rw [k6, b7]; simp, by rw [k7, c7]; simp⟩
    · rw [← add_assoc, loop_step hg hi (Prod.ext rfl f1 : afterIntegrate sv x _ = (_, some true))]; exact k1
    · rw [← add_assoc, loop_step hg' hi' (Prod.ext rfl f2 : afterIntegrate sv y r' = (_, some true))]; exact k2 f

/-- C32 for the channel solvers, whose memory of earlier steps is in the context and not in the closure: solving to
`T1 = t0 + n dt` and then to any `T ≥ T1` is the same as solving to `T`. -/
theorem C32_split_channel (sv : Solver S C D) (hm : Memoryless sv) (hfix : FixedStep sv) (hk : ∀ n, sv.killed n = false)
    (rotate : S → S) (hend : ∀ p s, sv.end_of_tstep p s = endChannel rotate p s) (hreg : ∀ p s, sv.regression_test p s = s)
    (p : Params) (hdt : 1e-12 < p.dt) (s : S) (h5 : H5 D) (n : ℕ) (T : ℝ) (hT : p.t + n * p.dt ≤ T)
    (f1 f2 : ℕ) (st1 st2 : St S C D)
    (h1 : solve sv (f1 + n + 1) { p with T := p.t + n * p.dt } s h5 = .returned st1)
    (h2 : solve sv f2 { st1.p with T := T } st1.s st1.h5 = .returned st2) :
    ∃ st, solve sv (f2 + n) { p with T := T } s h5 = .returned st ∧ st.s = st2.s ∧ st.p = st2.p ∧ st.h5 = st2.h5 ∧
      st.took = st1.took ++ st2.took := by
  obtain ⟨x1, l1, a2, a3, -, a5, a6⟩ := reachesClose_finished (Or.inl h1)
  obtain ⟨x2, l2, b2, b3, -, b5, b6⟩ := reachesClose_finished (Or.inl h2)
  obtain ⟨x', y', l, k1, k2, k3, k4, k5, k6, k7⟩ := first_part_channel hm hk rotate hend hfix p.dt hdt n
    (start sv { p with T := p.t + n * p.dt } s h5) (start sv { p with T := T } s h5) ⟨rfl, rfl, rfl, rfl, rfl, rfl, rfl⟩ rfl rfl rfl
    hT f1
  rw [l1] at k1
  injection k1 with k1
  subst k1
  obtain ⟨z, l', m1, m2, m3, m4, m5⟩ := loop_same hm hk (fun p q s => by simp only [hend, endChannel])
    (fun p q s e1 e2 e3 => by simp only [hend, endChannel, e2]) f2
    (start sv { st1.p with T := T } st1.s st1.h5) y'
    ⟨by rw [a2]; exact k3.t, by rw [a2]; exact k3.tstep, by rw [a2]; exact k3.wr, by rw [a2]; exact k3.cp, by rw [a2]; exact k3.tr,
      by rw [a6, hreg]; exact k3.s, by rw [a5]; exact k3.h5⟩ (by rw [a2, k4]) (by rw [k5]) x2 l2
  have hl : loop sv (f2 + n) (start sv { p with T := T } s h5) = .finished z := by
    rw [k2, m1]
  obtain ⟨st, c1, c2, c3, -, c5, c6, c7⟩ := solve_of_finished hl
  have hopen : z.h5.cfile = true ∧ z.h5.wfile = true := by
    rw [← m2.h5, ← b5]
    by_contra hc
    unfold solve at h2
    simp only [l2, h5close, ← b5, hc, if_false] at h2
    cases h2
  refine ⟨st, c7 hopen.1 hopen.2, ?_, ?_, ?_, ?_⟩
  · rw [c6, hreg, b6, hreg, m2.s]
  · have hd1 : st1.p.dt = p.dt := by rw [a2]
    rw [c2, b2]
    simp only [hd1]
    have e1 := m2.t; have e2 := m2.tstep; have e3 := m2.wr; have e4 := m2.cp; have e5 := m2.tr
    rw [e1, e2, e3, e4, e5, m3]
  · rw [c5, b5, m2.h5]
  · rw [c3, a3, b3, m5, m4, k7, k6]; simp

/-- The hypotheses on both calls are met: solving with ten steps of 0.1 to 1 and then to 1.5 does return. -/
example : ∃ st1 st2, solve (counter (endChannel id)) 20 ⟨0, 0.1, 1, 0, 1, 1, true⟩ 0 ⟨false, false, ⟨⟨fun _ => none, 0, 0⟩, []⟩⟩ =
    .returned st1 ∧ solve (counter (endChannel id)) 20 { st1.p with T := 1.5 } st1.s st1.h5 = .returned st2 ∧ st2.p.tstep = 15 := by
  have cnt : ∀ (a b : ℝ) (k : ℕ), b = a + k * 0.1 → ∀ m : ℕ, 1 ≤ m → (m ≤ k ↔ a + m * 0.1 ≤ b + 1e-12) := by
    intro a b k hb m hm
    rw [hb]
    constructor
    · intro h
      have : (m : ℝ) ≤ k := by exact_mod_cast h
      norm_num; linarith
    · intro h
      by_contra h'
      have : (k : ℝ) + 1 ≤ m := by exact_mod_cast (by omega : k + 1 ≤ m)
      norm_num at h; linarith
  obtain ⟨st1, -, -, h3, h4⟩ := C27_step_count (counter (endChannel id)) id (fun _ _ => rfl) (fun p s c => ⟨_, _, rfl⟩) (fun _ => rfl)
    ⟨0, 0.1, 1, 0, 1, 1, true⟩ 0 ⟨false, false, ⟨⟨fun _ => none, 0, 0⟩, []⟩⟩ 10 (cnt 0 1 10 (by norm_num)) 20 (by norm_num)
  obtain ⟨st2, -, -, g3, g4⟩ := C27_step_count (counter (endChannel id)) id (fun _ _ => rfl) (fun p s c => ⟨_, _, rfl⟩) (fun _ => rfl)
    { st1.p with T := 1.5 } st1.s st1.h5 5 (by
      rw [h3]
      have := cnt (0 + (10 : ℕ) * 0.1) 1.5 5 (by norm_num)
      exact this) 20 (by norm_num)
  exact ⟨st1, st2, h4 (by norm_num), g4 (by norm_num), by rw [g3, h3]⟩

/-- C32, why the second part must be a full step: if `T` is between `T1` and `T1 + dt` the second call does nothing (it returns at
`T1`), while the direct run shortens its last step and ends at `T`. -/
theorem C32_short_rest_differs (sv : Solver S C D) (hfix : FixedStep sv) (hk : ∀ n, sv.killed n = false)
    (hend : ∀ p s, sv.end_of_tstep p s = endPeriodic p s) (p : Params) (hdt : 0 < p.dt) (s : S) (h5 : H5 D) (n : ℕ) (hn : 1 ≤ n)
    (T : ℝ) (hT1 : p.t + n * p.dt + 1e-12 < T) (hT2 : T + 1e-12 < p.t + n * p.dt + p.dt) (f1 : ℕ) (st1 : St S C D)
    (h1 : solve sv f1 { p with T := p.t + n * p.dt } s h5 = .returned st1) (ht1 : st1.p.t = p.t + n * p.dt) :
    (∃ st2, solve sv 1 { st1.p with T := T } st1.s st1.h5 = .returned st2 ∧ st2.p.t = p.t + n * p.dt) ∧
    ∃ f st, solve sv f { p with T := T } s h5 = .returned st ∧ |st.p.t - T| < 1e-12 := by
  have h12 : (0 : ℝ) < 1e-12 := by norm_num
  have hnd : (1 : ℝ) * p.dt ≤ n * p.dt := mul_le_mul_of_nonneg_right (by exact_mod_cast hn) hdt.le
  obtain ⟨x1, l1, a2, a3, -, a5, a6⟩ := reachesClose_finished (Or.inl h1)
  have hopen : st1.h5.cfile = true ∧ st1.h5.wfile = true := by
    rw [a5]
    by_contra hc
    unfold solve at h1
    simp only [l1, h5close, hc, if_false] at h1
    cases h1
  constructor
  · obtain ⟨st2, k1, k2, -⟩ := C31_zero_step_partial sv { st1.p with T := T } st1.s st1.h5 (by
      have hd : st1.p.dt = p.dt := by rw [a2]
      simp only [ht1, hd]
      linarith) hopen.1 hopen.2 0
    exact ⟨st2, k1, by rw [k2]; exact ht1⟩
  · obtain ⟨st, g1, -⟩ := C29_bounded_steps sv hend hfix hk { p with T := T } hdt (by simp only; linarith) s h5 _ le_rfl
    have hne : st.took ≠ [] := by
      intro h0
      obtain ⟨y, m1, m2, m3, -⟩ := reachesClose_finished g1
      rcases loop_finished m1 with ⟨hr, hg⟩ | ⟨z, r, hr, hg, hi, ha⟩
      · rw [m3] at h0
        have : y.p.t = p.t ∧ y.p.dt = p.dt ∧ y.p.T = T := by
          refine hr.inv (fun x => x.took = [] → x.p.t = p.t ∧ x.p.dt = p.dt ∧ x.p.T = T) (fun _ => ⟨rfl, rfl, rfl⟩) ?_ h0
          intro x r x' _ _ _ ha h
          have := (afterIntegrate_basic sv x r).2.2.2.2.2.2.1
          rw [ha] at this
          simp only at this
          rw [this] at h
          simp at h
        rw [this.1, this.2.1, this.2.2] at hg
        apply hg
        linarith
      · have := (afterIntegrate_basic sv z r).2.2.2.2.2.2.1
        rw [ha] at this
        simp only at this
        rw [m3, this] at h0
        simp at h0
    obtain ⟨q1, -, q3⟩ := C28_ends_at_T sv hend { p with T := T } s h5 _ st g1 hne
    exact ⟨_, st, q3, q1⟩

end SpectralDNS.Solve

import Verif.Model.ChannelSolvers
import Verif.Props.Solve

/-!
# C101: what a call of `solve` computes with the channel solvers
-/

namespace SpectralDNS.Solve

variable {S C D : Type*}

/-- One pass of the loop with a channel solver. -/
def pass {S : Type*} (step upd rotate : S → S) (s : S) : S := rotate (upd (step s))

/-- The state of the loop after `k` passes. -/
theorem channel_seen {step : ℝ → S → S} {upd rotate : S → S} {results : S → D} {levels : List (ℕ × (S → D))} (p : Params) (s : S) (h5 : H5 D)
    {x : St S Unit D} (hx : Seen (channelSolver step upd rotate results levels) (start (channelSolver step upd rotate results levels) p s h5) x) :
    x.p.dt = p.dt ∧ x.p = { p with t := x.p.t, tstep := x.p.tstep } ∧ x.p.t = p.t + x.took.length * p.dt ∧ x.p.tstep = p.tstep + x.took.length ∧
      x.s = (pass (step p.dt) upd rotate)^[x.took.length] s ∧
      x.outs = (List.range x.took.length).map fun i =>
        ({ p with t := p.t + ((i + 1 : ℕ) : ℝ) * p.dt, tstep := p.tstep + (i + 1) }, upd (step p.dt ((pass (step p.dt) upd rotate)^[i] s))) := by
  refine hx.inv (fun x => x.p.dt = p.dt ∧ x.p = { p with t := x.p.t, tstep := x.p.tstep } ∧ x.p.t = p.t + x.took.length * p.dt ∧
      x.p.tstep = p.tstep + x.took.length ∧ x.s = (pass (step p.dt) upd rotate)^[x.took.length] s ∧
      x.outs = (List.range x.took.length).map fun i =>
        ({ p with t := p.t + ((i + 1 : ℕ) : ℝ) * p.dt, tstep := p.tstep + (i + 1) }, upd (step p.dt ((pass (step p.dt) upd rotate)^[i] s))))
    ⟨rfl, rfl, by simp, by simp, by simp, by simp⟩ ?_
  intro x r ⟨h1, h2, h3, h4, h5', h6⟩ _ hi
  have hr : r = (step x.p.dt x.s, x.c, x.p.dt, x.p.dt) := by
    simp only [channelSolver, Option.some.injEq] at hi
    exact hi.symm
  subst hr
  rw [afterIntegrate_alive _ _ _ rfl]
  have hrs : ∀ (q : Params) (y : S), resultState (channelSolver step upd rotate results levels) q y = y := fun q y => by
    unfold resultState; split_ifs <;> rfl
  have e2 : p.t + x.took.length * p.dt + p.dt = p.t + ((x.took.length + 1 : ℕ) : ℝ) * p.dt := by push_cast; ring
  have hp : outP x (step x.p.dt x.s, x.c, x.p.dt, x.p.dt) = { p with t := p.t + ((x.took.length + 1 : ℕ) : ℝ) * p.dt, tstep := p.tstep + (x.took.length + 1) } := by
    unfold outP
    rw [h2]
    simp only [h3, h4, e2]
    rfl
  simp only [h5update, channelSolver, endChannel, hp]
  refine ⟨trivial, trivial, by simp, by simp [List.length_append], ?_, ?_⟩
  · have := hrs
    simp only [channelSolver] at this
    rw [this, List.length_append, List.length_singleton, Function.iterate_succ_apply', ← h5', h1]
    rfl
  · rw [List.length_append, List.length_singleton, List.range_succ, List.map_append, h6, h1, h5']
    rfl

/-- **C101.**  With a channel solver, `solve` takes the `n` steps that fit below `T + 1e-12` and leaves exactly the `n`-th iterate of (step, `update`,
`end_of_tstep`) of the state it was given; what is handed to the output after the `i`-th step is the `i`-th state, with its time and its number. -/
theorem C101_channel_solve (step : ℝ → S → S) (upd rotate : S → S) (results : S → D) (levels : List (ℕ × (S → D))) (p : Params) (s : S) (h5 : H5 D) (n : ℕ)
    (hn : ∀ m : ℕ, 1 ≤ m → (m ≤ n ↔ p.t + m * p.dt ≤ p.T + 1e-12)) (fuel : ℕ) (hf : n < fuel) :
    ∃ st, (solve (channelSolver step upd rotate results levels) fuel p s h5).reachesClose st ∧
      st.s = (fun s => rotate (upd (step p.dt s)))^[n] s ∧ st.p = { p with t := p.t + n * p.dt, tstep := p.tstep + n } ∧
      st.outs = ((List.range n).map fun i => ({ p with t := p.t + ((i + 1 : ℕ) : ℝ) * p.dt, tstep := p.tstep + (i + 1) },
        upd (step p.dt ((fun s => rotate (upd (step p.dt s)))^[i] s)))) ∧
      (1 ≤ n → solve (channelSolver step upd rotate results levels) fuel p s h5 = .returned st) := by
  obtain ⟨st, h1, h2, h3, h4⟩ := C27_step_count (channelSolver step upd rotate results levels) rotate (fun _ _ => rfl) (fun p s c => ⟨_, _, rfl⟩)
    (fun _ => rfl) p s h5 n hn fuel hf
  obtain ⟨x, k1, k2, k3, k4, k5, k6⟩ := reachesClose_finished h1
  obtain ⟨g1, g2, g3, g4, g5, g6⟩ := channel_seen p s h5 (loop_finished_seen k1)
  have hl : x.took.length = n := by rw [← k3, h2, List.length_replicate]
  rw [hl] at g5 g6
  exact ⟨st, h1, k6.trans g5, h3, k4.trans g6, h4⟩

/-- A run from time zero: at least one step, ending less than one step before `T` and at most at `T + 1e-12`. -/
theorem channel_run (step : ℝ → S → S) (upd rotate : S → S) (results : S → D) (levels : List (ℕ × (S → D))) (p : Params) (ht : p.t = 0) (hdt : 0 < p.dt)
    (hT : p.dt ≤ p.T) (s : S) (h5 : H5 D) (fuel : ℕ) (hf : (p.T + 1e-12) / p.dt < fuel) :
    ∃ (n : ℕ) (st : St S Unit D), solve (channelSolver step upd rotate results levels) fuel p s h5 = .returned st ∧ n * p.dt ≤ p.T + 1e-12 ∧
      p.T < n * p.dt + p.dt ∧ st.p.t = n * p.dt ∧ st.p.tstep = p.tstep + n ∧ st.s = (fun s => rotate (upd (step p.dt s)))^[n] s ∧
      ∀ o ∈ st.outs, ∃ i < n, o.1.t = ((i + 1 : ℕ) : ℝ) * p.dt ∧ o.2 = upd (step p.dt ((fun s => rotate (upd (step p.dt s)))^[i] s)) := by
  obtain ⟨n, hn, -⟩ := exists_stepCount p.t p.T p.dt hdt
  have h12 : (0 : ℝ) < 1e-12 := by norm_num
  have h1 : 1 ≤ n := (hn 1 le_rfl).2 (by rw [ht]; push_cast; linarith)
  have h2 : (n : ℝ) * p.dt ≤ p.T + 1e-12 := by have := (hn n h1).1 le_rfl; rwa [ht, zero_add] at this
  have h3 : p.T < n * p.dt + p.dt := by
    by_contra h
    push Not at h
    have := (hn (n + 1) (by omega)).2 (by rw [ht]; push_cast; linarith)
    omega
  have h4 : n < fuel := by
    have : (n : ℝ) ≤ (p.T + 1e-12) / p.dt := by rwa [le_div_iff₀ hdt]
    exact_mod_cast this.trans_lt hf
  obtain ⟨st, -, a1, a2, a3, a4⟩ := C101_channel_solve step upd rotate results levels p s h5 n hn fuel h4
  refine ⟨n, st, a4 h1, h2, h3, by rw [a2, ht, zero_add], by rw [a2], a1, fun o ho => ?_⟩
  rw [a3, List.mem_map] at ho
  obtain ⟨i, hi, rfl⟩ := ho
  exact ⟨i, List.mem_range.1 hi, by rw [ht, zero_add], rfl⟩

/-- What holds of every iterate at its time holds at the end of the call and of every output, if `end_of_tstep` does not matter for it. -/
theorem channel_accurate (step : ℝ → S → S) (upd rotate : S → S) (results : S → D) (levels : List (ℕ × (S → D))) (p : Params) (ht : p.t = 0) (hdt : 0 < p.dt)
    (hT : p.dt ≤ p.T) {T : ℝ} (hT2 : p.T + 1e-12 ≤ T) (s : S) (h5 : H5 D) (fuel : ℕ) (hf : (p.T + 1e-12) / p.dt < fuel) (P : S → ℝ → Prop)
    (hrot : ∀ x t, P (rotate x) t → P x t) (hP : ∀ i : ℕ, i * p.dt ≤ T → P ((fun s => rotate (upd (step p.dt s)))^[i] s) (i * p.dt)) :
    ∃ st, solve (channelSolver step upd rotate results levels) fuel p s h5 = .returned st ∧ p.T - p.dt < st.p.t ∧ st.p.t ≤ p.T + 1e-12 ∧
      P st.s st.p.t ∧ ∀ o ∈ st.outs, P o.2 o.1.t := by
  obtain ⟨m, st, h1, h2, h3, h4, -, h5', h6⟩ := channel_run step upd rotate results levels p ht hdt hT s h5 fuel hf
  refine ⟨st, h1, by linarith, by rw [h4]; exact h2, ?_, fun o ho => ?_⟩
  · rw [h5', h4]
    exact hP m (h2.trans hT2)
  · obtain ⟨i, hi, o1, o2⟩ := h6 o ho
    have hi' : ((i + 1 : ℕ) : ℝ) * p.dt ≤ m * p.dt := mul_le_mul_of_nonneg_right (by exact_mod_cast hi) hdt.le
    have := hP (i + 1) (hi'.trans (h2.trans hT2))
    rw [Function.iterate_succ_apply'] at this
    rw [o1, o2]
    exact hrot _ _ this

end SpectralDNS.Solve

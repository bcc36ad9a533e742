import Verif.Props.SolveChannel
import Verif.Props.ChannelRK3
import Verif.Props.RayleighBenard
import Verif.Props.H5

/-!
# C103: a run continued through its checkpoint file
-/

namespace SpectralDNS.Solve

open Channel

variable {S D : Type*}

/-- The same solver with a kill file that may turn up at the steps `kl`. -/
def withKill {S C D : Type*} (sv : Solver S C D) (kl : ℕ → Bool) : Solver S C D := { sv with killed := kl }

/-- The state of the loop after `k` passes of a solver without an action at the end of the step, with a kill file. -/
theorem channel_seen_kill {step : ℝ → S → S} {upd : S → S} {results : S → D} {levels : List (ℕ × (S → D))} (kl : ℕ → Bool) (p : Params) (s : S)
    (h5 : H5 D) {x : St S Unit D} (hx : Seen (withKill (channelSolver step upd id results levels) kl)
      (start (withKill (channelSolver step upd id results levels) kl) p s h5) x) :
    x.p = { p with t := p.t + x.took.length * p.dt, tstep := p.tstep + x.took.length } ∧ x.s = (fun s => upd (step p.dt s))^[x.took.length] s ∧
      x.outs = (List.range x.took.length).map fun i =>
        ({ p with t := p.t + ((i + 1 : ℕ) : ℝ) * p.dt, tstep := p.tstep + (i + 1) }, (fun s => upd (step p.dt s))^[i + 1] s) := by
  refine hx.inv (fun x => x.p = { p with t := p.t + x.took.length * p.dt, tstep := p.tstep + x.took.length } ∧
      x.s = (fun s => upd (step p.dt s))^[x.took.length] s ∧
      x.outs = (List.range x.took.length).map fun i =>
        ({ p with t := p.t + ((i + 1 : ℕ) : ℝ) * p.dt, tstep := p.tstep + (i + 1) }, (fun s => upd (step p.dt s))^[i + 1] s))
    ⟨by simp [start], by simp [start], by simp [start]⟩ ?_
  intro x r ⟨h1, h2, h3⟩ _ hi
  have hr : r = (step x.p.dt x.s, x.c, x.p.dt, x.p.dt) := by
    simp only [withKill, channelSolver, Option.some.injEq] at hi
    exact hi.symm
  subst hr
  have hdt : x.p.dt = p.dt := by rw [h1]
  have e2 : p.t + x.took.length * p.dt + p.dt = p.t + ((x.took.length + 1 : ℕ) : ℝ) * p.dt := by push_cast; ring
  have hp : outP x (step x.p.dt x.s, x.c, x.p.dt, x.p.dt) = { p with t := p.t + ((x.took.length + 1 : ℕ) : ℝ) * p.dt, tstep := p.tstep + (x.took.length + 1) } := by
    unfold outP
    rw [h1]
    simp only [e2]
    rfl
  obtain ⟨-, c2⟩ := afterIntegrate_h5 (withKill (channelSolver step upd id results levels) kl) x (step x.p.dt x.s, x.c, x.p.dt, x.p.dt)
  obtain ⟨-, -, -, -, -, -, b7, -⟩ := afterIntegrate_basic (withKill (channelSolver step upd id results levels) kl) x (step x.p.dt x.s, x.c, x.p.dt, x.p.dt)
  have hs : (afterIntegrate (withKill (channelSolver step upd id results levels) kl) x (step x.p.dt x.s, x.c, x.p.dt, x.p.dt)).1.s = upd (step x.p.dt x.s) := by
    unfold afterIntegrate h5update resultState
    dsimp only [withKill, channelSolver, endChannel]
    split_ifs <;> rfl
  have hpp : (afterIntegrate (withKill (channelSolver step upd id results levels) kl) x (step x.p.dt x.s, x.c, x.p.dt, x.p.dt)).1.p =
      outP x (step x.p.dt x.s, x.c, x.p.dt, x.p.dt) := by
    unfold afterIntegrate outP
    dsimp only [withKill, channelSolver, endChannel]
    split_ifs <;> rfl
  rw [hpp, hs, b7, c2, hp]
  refine ⟨by simp, ?_, ?_⟩
  · rw [List.length_append, List.length_singleton, Function.iterate_succ_apply', ← h2, hdt]
  · rw [List.length_append, List.length_singleton, List.range_succ, List.map_append, h3, hdt, h2]
    simp [Function.iterate_succ_apply', withKill, channelSolver]

/-- The last entry of a table with a property. -/
theorem getLast_filter_range {α : Type*} (g : ℕ → α) (P : α → Bool) (n : ℕ) {o : α} (h : (((List.range n).map g).filter P).getLast? = some o) :
    ∃ i < n, o = g i ∧ P (g i) = true ∧ ∀ j, i < j → j < n → P (g j) = false := by
  induction n with
  | zero => simp at h
  | succ n ih =>
    rw [List.range_succ, List.map_append, List.filter_append] at h
    by_cases hP : P (g n) = true
    · have e : List.filter P (List.map g [n]) = [g n] := by simp [hP]
      rw [e, List.getLast?_append_cons, List.getLast?_singleton, Option.some.injEq] at h
      exact ⟨n, by omega, h.symm, hP, fun j h1 h2 => by omega⟩
    · have e : List.filter P (List.map g [n]) = [] := by simp [hP]
      rw [e, List.append_nil] at h
      obtain ⟨i, h1, h2, h3, h4⟩ := ih h
      refine ⟨i, by omega, h2, h3, fun j h5 h6 => ?_⟩
      by_cases hj : j = n
      · subst hj; simpa using hP
      · exact h4 j h5 (by omega)

/-- The checkpoint file of a run: one of the states the run went through, with its time and its number, the last one due. -/
theorem file_of_run {step : ℝ → S → S} {upd : S → S} {results lev : S → D} (kl : ℕ → Bool) (p : Params) (s : S) (d : Disk D)
    {x : St S Unit D} (hx : Seen (withKill (channelSolver step upd id results [(0, lev)]) kl)
      (start (withKill (channelSolver step upd id results [(0, lev)]) kl) p s (fresh d)) x)
    (hdue : ∃ o ∈ x.outs, o.1.tstep % p.checkpoint = 0 ∨ kl o.1.tstep = true) :
    ∃ i : ℕ, 1 ≤ i ∧ i ≤ x.took.length ∧ x.h5.disk.c.levels 0 = some (lev ((fun s => upd (step p.dt s))^[i] s)) ∧
      x.h5.disk.c.tstep = p.tstep + i ∧ x.h5.disk.c.t = p.t + i * p.dt ∧ ((p.tstep + i) % p.checkpoint = 0 ∨ kl (p.tstep + i) = true) ∧
      ∀ j, i < j → j ≤ x.took.length → ¬ ((p.tstep + j) % p.checkpoint = 0 ∨ kl (p.tstep + j) = true) := by
  obtain ⟨-, -, h3⟩ := channel_seen_kill kl p s (fresh d) hx
  have hC := (C41_consistent (withKill (channelSolver step upd id results [(0, lev)]) kl) (by simp [withKill, channelSolver]) (by simp [withKill, channelSolver])
    (by simp [withKill, channelSolver]) p s d x hx).1
  rcases hl : lastDue (withKill (channelSolver step upd id results [(0, lev)]) kl) p.checkpoint x.outs with _ | o
  · exfalso
    obtain ⟨o, ho, hd⟩ := hdue
    unfold lastDue at hl
    rw [List.getLast?_eq_none_iff, List.filter_eq_nil_iff] at hl
    exact hl o ho (decide_eq_true hd)
  · obtain ⟨c1, c2, c3⟩ := hC o hl
    unfold lastDue at hl
    rw [h3] at hl
    obtain ⟨i, hi, rfl, hd, hlast⟩ := getLast_filter_range _ _ _ hl
    refine ⟨i + 1, by omega, hi, ?_, c2, c3, of_decide_eq_true hd, fun j h1 h2 => ?_⟩
    · exact c1 (0, lev) (by simp [withKill, channelSolver])
    · obtain ⟨m, rfl⟩ := Nat.exists_eq_add_of_le' (show 1 ≤ j by omega)
      exact of_decide_eq_false (hlast m (by omega) (by omega))

/-- A call that starts from a state whose future is that of the `i`-th state of another call does what is left of that call. -/
theorem resume (step : ℝ → S → S) (upd : S → S) (results : S → D) (levels : List (ℕ × (S → D))) (p p2 : Params) (s sR : S) (i : ℕ) (hdt : 0 < p.dt)
    (hdt2 : p2.dt = p.dt) (hT : p2.T - p2.t = p.T - (p.t + i * p.dt)) (hi : p.t + (i + 1 : ℕ) * p.dt ≤ p.T + 1e-12)
    (hres : ∀ m, (fun s => upd (step p.dt s))^[m + 1] sR = (fun s => upd (step p.dt s))^[i + (m + 1)] s) (h5 h5' : H5 D) (fuel : ℕ)
    (hf : (p.T + 1e-12 - p.t) / p.dt < fuel) :
    ∃ st st', solve (channelSolver step upd id results levels) fuel p s h5 = .returned st ∧
      solve (channelSolver step upd id results levels) fuel p2 sR h5' = .returned st' ∧ st'.s = st.s ∧
      st'.p.t - p2.t = st.p.t - (p.t + i * p.dt) ∧ p.tstep + i + st'.p.tstep = st.p.tstep + p2.tstep ∧
      st'.outs.map (fun o => (o.2, o.1.t - p2.t, (o.1.tstep : ℤ) - p2.tstep)) =
        (st.outs.drop i).map (fun o => (o.2, o.1.t - (p.t + i * p.dt), (o.1.tstep : ℤ) - (p.tstep + i : ℕ))) := by
  obtain ⟨n, hn, -⟩ := exists_stepCount p.t p.T p.dt hdt
  have hin : i + 1 ≤ n := (hn (i + 1) (by omega)).2 hi
  have hnf : n < fuel := by
    have h := (hn n (by omega)).1 le_rfl
    have : (n : ℝ) ≤ (p.T + 1e-12 - p.t) / p.dt := by rw [le_div_iff₀ hdt]; linarith
    exact_mod_cast this.trans_lt hf
  obtain ⟨j, rfl⟩ := Nat.exists_eq_add_of_le hin
  have hn2 : ∀ m : ℕ, 1 ≤ m → (m ≤ j + 1 ↔ p2.t + m * p2.dt ≤ p2.T + 1e-12) := by
    intro m hm
    have := hn (i + m) (by omega)
    rw [hdt2]
    push_cast at this
    constructor
    · intro h
      have := this.1 (by omega)
      linarith
    · intro h
      have := this.2 (by linarith)
      omega
  obtain ⟨st, -, a1, a2, a3, a4⟩ := C101_channel_solve step upd id results levels p s h5 _ hn fuel hnf
  obtain ⟨st', -, b1, b2, b3, b4⟩ := C101_channel_solve step upd id results levels p2 sR h5' (j + 1) hn2 fuel (by omega)
  rw [hdt2] at b1 b2 b3
  refine ⟨st, st', a4 (by omega), b4 (by omega), ?_, ?_, ?_, ?_⟩
  · rw [a1, b1]
    have := hres j
    rw [show i + 1 + j = i + (j + 1) by omega]
    exact this
  · rw [a2, b2]; push_cast; ring
  · rw [a2, b2]; dsimp only; omega
  · have hr : List.range (i + 1 + j) = List.range i ++ (List.range (j + 1)).map (i + ·) := by
      rw [show i + 1 + j = i + (j + 1) by omega, List.range_add]
    rw [a3, b3, ← List.map_drop, hr, List.drop_left' List.length_range, List.map_map, List.map_map, List.map_map]
    refine List.map_congr_left fun m hm => ?_
    have h1 := hres m
    rw [Function.iterate_succ_apply', show i + (m + 1) = (i + m) + 1 by omega, Function.iterate_succ_apply'] at h1
    simp only [Function.comp, id, Prod.mk.injEq]
    refine ⟨h1, by push_cast; ring, by push_cast; ring⟩

section
variable {κ B E : Type*} [DecidableEq κ] [AddCommGroup B] [Module ℂ B] [AddCommGroup E] [Module ℂ E]

/-- **C103 (KMMRK3).**  Take a run of `solve` at any moment after it has written a checkpoint: in its middle, finished, or ended by the kill file.  The file
holds the velocity after `i` of its steps, the last one in which a checkpoint was due, with time and number of that step.  Read into any fresh context by `init_from_file` and continued by `solve`
with the same step for the time that was left, with the clock of the file or any other, it ends in exactly the state in which the uninterrupted run to the same
time ends, and hands exactly the same states to the output as that one after its step `i`, at the same times and with the same numbers counted from there. -/
theorem C103_kmmrk3 (c : Ctx κ B E) (la : Fin 3 → LA κ B E) (upd : Vel κ B E → Vel κ B E)
    (htdma : ∀ b, c.M.BDD ((la 2).tdmaD b) = b) (hz : ∀ k, c.G.Ksq k = 0 ↔ k = c.G.zero)
    (hX1 : c.G.X1 c.G.zero = 0) (hX2 : c.G.X2 c.G.zero = 0) (hh : ∀ rk, (la rk).helmholtzG c.G.zero 0 = 0)
    (hupd : ∀ U, vorticity c.G (upd U) = vorticity c.G U) (results store : Vel κ B E → D) (load : D → Vel κ B E) (hload : ∀ U, load (store U) = U)
    (kl : ℕ → Bool) (p : Params) (hdt : 0 < p.dt) (s0 : St3 κ B E) (hg0 : s0.g c.G.zero = 0) (d : Disk D) (x : St (St3 κ B E) Unit D)
    (hx : Seen (withKill (kmmrk3Solver c la upd results store) kl) (start (withKill (kmmrk3Solver c la upd results store) kl) p s0 (fresh d)) x)
    (hdue : ∃ o ∈ x.outs, o.1.tstep % p.checkpoint = 0 ∨ kl o.1.tstep = true) :
    ∃ (i : ℕ) (data : D), 1 ≤ i ∧ i ≤ x.took.length ∧ x.h5.disk.c.levels 0 = some data ∧ x.h5.disk.c.tstep = p.tstep + i ∧ x.h5.disk.c.t = p.t + i * p.dt ∧
      ((p.tstep + i) % p.checkpoint = 0 ∨ kl (p.tstep + i) = true) ∧
      (∀ j, i < j → j ≤ x.took.length → ¬ ((p.tstep + j) % p.checkpoint = 0 ∨ kl (p.tstep + j) = true)) ∧
      ∀ (T : ℝ) (p2 : Params) (s : St3 κ B E) (h5 h5' : H5 D) (fuel : ℕ), p2.dt = p.dt → p2.T - p2.t = T - x.h5.disk.c.t →
        x.h5.disk.c.t + p.dt ≤ T + 1e-12 → (T + 1e-12 - p.t) / p.dt < fuel →
      ∃ st st', solve (kmmrk3Solver c la upd results store) fuel { p with T := T } s0 h5 = .returned st ∧
        solve (kmmrk3Solver c la upd results store) fuel p2 (initFromFile3 c s (load data)) h5' = .returned st' ∧ st'.s = st.s ∧
        st'.p.t - p2.t = st.p.t - x.h5.disk.c.t ∧
        st'.outs.map (fun o => (o.2, o.1.t - p2.t, (o.1.tstep : ℤ) - p2.tstep)) =
          (st.outs.drop i).map (fun o => (o.2, o.1.t - x.h5.disk.c.t, (o.1.tstep : ℤ) - x.h5.disk.c.tstep)) := by
  obtain ⟨i, h1, h2, h3, h4, h5, h6, h7⟩ := file_of_run kl p s0 d hx hdue
  refine ⟨i, _, h1, h2, h3, h4, h5, h6, h7, fun T p2 s h5a h5b fuel e1 e2 e3 e4 => ?_⟩
  rw [h5] at e2 e3
  obtain ⟨n, rfl⟩ := Nat.exists_eq_add_of_le' h1
  have hres : ∀ m, (tick3 { c with dt := p.dt } la upd)^[m + 1] (initFromFile3 c s (load (store ((tick3 { c with dt := p.dt } la upd)^[n + 1] s0).U))) =
      (tick3 { c with dt := p.dt } la upd)^[n + 1 + (m + 1)] s0 := by
    intro m
    rw [hload]
    have hR := C37_restart { c with dt := p.dt } la upd htdma hz hX1 hX2 hh hupd s0 s hg0 n 0
    have hF := C37_future { c with dt := p.dt } la upd (initFromFile3 c s ((tick3 { c with dt := p.dt } la upd)^[n + 1] s0).U)
      ((tick3 { c with dt := p.dt } la upd)^[n + 1] s0) hR.1 hR.2 m
    rw [hF, ← Function.iterate_add_apply, show m + 1 + (n + 1) = n + 1 + (m + 1) by omega]
  obtain ⟨st, st', a1, a2, a3, a4, -, a5⟩ := resume (fun dt => Channel.integrate3 { c with dt := dt } la) (fun s => { s with U := upd s.U })
    (fun s => results s.U) [(0, fun s => store s.U)] { p with T := T } p2 s0 _ (n + 1) hdt e1 e2 (by push_cast at e3 ⊢; linarith) hres h5a h5b fuel e4
  rw [h5, h4]
  exact ⟨st, st', a1, a2, a3, a4, a5⟩

/-- **C103 (KMMRK3_RB).**  The same for velocity and temperature. -/
theorem C103_kmmrk3_rb (r : RBCtx κ B E) (convT : Vel κ B E → Temp κ E → κ → E) (la : Fin 3 → LA κ B E) (solveT : Fin 3 → κ → E → E)
    (htdma : ∀ b, r.c.M.BDD ((la 2).tdmaD b) = b) (hz : ∀ k, r.c.G.Ksq k = 0 ↔ k = r.c.G.zero)
    (hX1 : r.c.G.X1 r.c.G.zero = 0) (hX2 : r.c.G.X2 r.c.G.zero = 0) (hh : ∀ rk, (la rk).helmholtzG r.c.G.zero 0 = 0)
    (results store : Vel κ B E → Temp κ E → D) (load : D → Vel κ B E × Temp κ E) (hload : ∀ U T, load (store U T) = (U, T))
    (kl : ℕ → Bool) (p : Params) (hdt : 0 < p.dt) (s0 : RB3St κ B E) (hg0 : s0.s.g r.c.G.zero = 0) (d : Disk D) (x : St (RB3St κ B E) Unit D)
    (hx : Seen (withKill (kmmrk3rbSolver r convT la solveT results store) kl)
      (start (withKill (kmmrk3rbSolver r convT la solveT results store) kl) p s0 (fresh d)) x)
    (hdue : ∃ o ∈ x.outs, o.1.tstep % p.checkpoint = 0 ∨ kl o.1.tstep = true) :
    ∃ (i : ℕ) (data : D), 1 ≤ i ∧ i ≤ x.took.length ∧ x.h5.disk.c.levels 0 = some data ∧ x.h5.disk.c.tstep = p.tstep + i ∧ x.h5.disk.c.t = p.t + i * p.dt ∧
      ((p.tstep + i) % p.checkpoint = 0 ∨ kl (p.tstep + i) = true) ∧
      (∀ j, i < j → j ≤ x.took.length → ¬ ((p.tstep + j) % p.checkpoint = 0 ∨ kl (p.tstep + j) = true)) ∧
      ∀ (T : ℝ) (p2 : Params) (s : RB3St κ B E) (h5 h5' : H5 D) (fuel : ℕ), p2.dt = p.dt → p2.T - p2.t = T - x.h5.disk.c.t →
        x.h5.disk.c.t + p.dt ≤ T + 1e-12 → (T + 1e-12 - p.t) / p.dt < fuel →
      ∃ st st', solve (kmmrk3rbSolver r convT la solveT results store) fuel { p with T := T } s0 h5 = .returned st ∧
        solve (kmmrk3rbSolver r convT la solveT results store) fuel p2 (initRB3 r s (load data)) h5' = .returned st' ∧ st'.s = st.s ∧
        st'.p.t - p2.t = st.p.t - x.h5.disk.c.t ∧
        st'.outs.map (fun o => (o.2, o.1.t - p2.t, (o.1.tstep : ℤ) - p2.tstep)) =
          (st.outs.drop i).map (fun o => (o.2, o.1.t - x.h5.disk.c.t, (o.1.tstep : ℤ) - x.h5.disk.c.tstep)) := by
  unfold kmmrk3rbSolver at hx ⊢
  generalize hF : (fun dt => Channel.integrateRB3 { r with c := { r.c with dt := dt } } convT la solveT) = step at hx ⊢
  obtain ⟨i, h1, h2, h3, h4, h5, h6, h7⟩ := file_of_run kl p s0 d hx hdue
  refine ⟨i, _, h1, h2, h3, h4, h5, h6, h7, fun T p2 s h5a h5b fuel e1 e2 e3 e4 => ?_⟩
  rw [h5] at e2 e3
  obtain ⟨n, rfl⟩ := Nat.exists_eq_add_of_le' h1
  have hstep : step p.dt = Channel.integrateRB3 { r with c := { r.c with dt := p.dt } } convT la solveT := by rw [← hF]
  have hres : ∀ m, (step p.dt)^[m + 1] (initRB3 r s (load (store ((step p.dt)^[n + 1] s0).s.U ((step p.dt)^[n + 1] s0).phi))) =
      (step p.dt)^[n + 1 + (m + 1)] s0 := by
    intro m
    rw [hload, hstep]
    exact C65_rk3_restart_partial { r with c := { r.c with dt := p.dt } } convT la solveT htdma hz hX1 hX2 hh s0 s hg0 n m
  obtain ⟨st, st', a1, a2, a3, a4, -, a5⟩ := resume step id
    (fun s => results s.s.U s.phi) [(0, fun s => store s.s.U s.phi)] { p with T := T } p2 s0 _ (n + 1) hdt e1 e2 (by push_cast at e3 ⊢; linarith) hres h5a h5b fuel e4
  rw [h5, h4]
  exact ⟨st, st', a1, a2, a3, a4, a5⟩

end

/-- A run reaches every step before the end which comes before the kill file. -/
theorem reach_steps {step : ℝ → S → S} {upd : S → S} {results : S → D} {levels : List (ℕ × (S → D))} (kl : ℕ → Bool) (p : Params) (s : S) (h5 : H5 D) (k : ℕ)
    (hT : ∀ m < k, p.t + (m + 1 : ℕ) * p.dt ≤ p.T + 1e-12) (hk : ∀ m < k, kl (p.tstep + (m + 1)) = false) :
    ∃ x, Reach (withKill (channelSolver step upd id results levels) kl) (start (withKill (channelSolver step upd id results levels) kl) p s h5) x ∧
      x.took.length = k := by
  induction k with
  | zero => exact ⟨_, .refl, rfl⟩
  | succ k ih =>
    obtain ⟨x, h1, h2⟩ := ih (fun m hm => hT m (by omega)) (fun m hm => hk m (by omega))
    obtain ⟨e, -, -⟩ := channel_seen_kill kl p s h5 ⟨x, h1, Or.inl rfl⟩
    have hg : x.p.t + x.p.dt ≤ x.p.T + 1e-12 := by
      have := hT k (by omega)
      rw [e, h2]
      push_cast at this ⊢
      linarith
    have ha := afterIntegrate_alive (withKill (channelSolver step upd id results levels) kl) x (step x.p.dt x.s, x.c, x.p.dt, x.p.dt)
      (by rw [e, h2]; exact hk k (by omega))
    refine ⟨_, .step h1 hg rfl ha, ?_⟩
    simp [h2]

/-- A run of KMMRK3 with the time step a tenth which is killed during its seventh step, with checkpoints every fourth step: the file holds that step, and the run
continued from it to time one ends as the one that was never killed. -/
example (s0 s : St3 (Bool × Bool) ℂ ℂ) (hg0 : s0.g (false, false) = 0) (h5 : H5 (Vel (Bool × Bool) ℂ ℂ)) :
    let sv := kmmrk3Solver demoCtx (fun rk => demoLA3 (rkA rk + rkB rk)) id id id
    let p : Params := ⟨0, 0.1, 1, 0, 1, 4, true⟩
    ∃ x data, Seen (withKill sv (fun n => n == 7)) (start (withKill sv (fun n => n == 7)) p s0 (fresh ⟨⟨fun _ => none, 0, 0⟩, []⟩)) x ∧
      x.h5.disk.c.levels 0 = some data ∧ x.h5.disk.c.tstep = 7 ∧
      ∃ st st', solve sv 20 p s0 h5 = .returned st ∧ solve sv 20 { p with t := x.h5.disk.c.t, tstep := 7 } (initFromFile3 demoCtx s data) h5 = .returned st' ∧
        st'.s = st.s := by
  intro sv p
  obtain ⟨y, hy, hl⟩ := reach_steps (fun n => n == 7) p s0 (fresh ⟨⟨fun _ => none, 0, 0⟩, []⟩) 6
    (fun m hm => by interval_cases m <;> norm_num [p]) (fun m hm => by interval_cases m <;> rfl)
    (step := fun dt => Channel.integrate3 { demoCtx with dt := dt } fun rk => demoLA3 (rkA rk + rkB rk)) (upd := fun s => { s with U := id s.U })
    (results := fun s => id s.U) (levels := [(0, fun s => id s.U)])
  have hy' : Reach (withKill sv (fun n => n == 7)) (start (withKill sv (fun n => n == 7)) p s0 (fresh ⟨⟨fun _ => none, 0, 0⟩, []⟩)) y := hy
  obtain ⟨e, -, -⟩ := channel_seen_kill _ p s0 _ ⟨y, hy, Or.inl rfl⟩
  have hx : Seen (withKill sv (fun n => n == 7)) (start (withKill sv (fun n => n == 7)) p s0 (fresh ⟨⟨fun _ => none, 0, 0⟩, []⟩)) _ :=
    ⟨y, hy', Or.inr ⟨_, by rw [e, hl]; norm_num [p], rfl, rfl⟩⟩
  obtain ⟨-, -, -, -, -, -, b7, -⟩ := afterIntegrate_basic (withKill sv (fun n => n == 7)) y
    (Channel.integrate3 { demoCtx with dt := y.p.dt } (fun rk => demoLA3 (rkA rk + rkB rk)) y.s, y.c, y.p.dt, y.p.dt)
  obtain ⟨-, c2⟩ := afterIntegrate_h5 (withKill sv (fun n => n == 7)) y
    (Channel.integrate3 { demoCtx with dt := y.p.dt } (fun rk => demoLA3 (rkA rk + rkB rk)) y.s, y.c, y.p.dt, y.p.dt)
  have hts : y.p.tstep = 6 := by rw [e, hl]
  obtain ⟨i, data, h1, h2, h3, h4, h5', h6, h7, H⟩ := C103_kmmrk3 demoCtx (fun rk => demoLA3 (rkA rk + rkB rk)) id (demo_solves3 _ (ab_pos 2)).tdmaD demoGrid_zero
    rfl rfl (fun rk => by simp [demoLA3]) (fun _ => rfl) id id id (fun _ => rfl) (fun n => n == 7) p (by norm_num [p]) s0 hg0 _ _ hx
    ⟨_, by rw [c2]; exact List.mem_append_right _ (List.mem_singleton.2 rfl), Or.inr (by simp [outP, hts])⟩
  rw [b7, List.length_append, hl] at h2 h7
  have hi : i = 7 := by
    by_contra hne
    have h8 : i ≤ 7 := h2
    exact h7 7 (by omega) le_rfl (Or.inr rfl)
  subst hi
  refine ⟨_, data, hx, h3, h4, ?_⟩
  obtain ⟨st, st', a1, a2, a3, -⟩ := H 1 { p with t := _, tstep := 7 } s h5 h5 20 rfl rfl (by rw [h5']; norm_num [p]) (by norm_num [p])
  exact ⟨st, st', a1, a2, a3⟩

end SpectralDNS.Solve

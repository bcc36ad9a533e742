import Verif.Props.SolveRestart
import Verif.Props.SolvePeriodic

/-!
# C103 for the periodic solvers
-/

namespace SpectralDNS.Solve

variable {S C D : Type*}

/-- From a reached state the loop goes on as from the start. -/
theorem Reach.loop {sv : Solver S C D} {a b : St S C D} (h : Reach sv a b) :
    ∃ k, (∀ f, loop sv (f + k) a = loop sv f b) ∧ b.took.length = a.took.length + k := by
  induction h with
  | refl => exact ⟨0, fun _ => rfl, rfl⟩
  | @step st st' r _ hg hi ha ih =>
    obtain ⟨k, h1, h2⟩ := ih
    obtain ⟨-, -, -, -, -, -, b7, -⟩ := afterIntegrate_basic sv st r
    rw [ha] at b7
    refine ⟨k + 1, fun f => ?_, ?_⟩
    · rw [show f + (k + 1) = (f + 1) + k by omega, h1, loop_step hg hi ha]
    · rw [b7, List.length_append, h2]; simp; omega

/-- The rest of a loop depends on the parameters and the context only. -/
theorem loop_forget {sv : Solver S C D} (hm : ∀ p s c c', (sv.integrate p s c).map (fun r => (r.1, r.2.2)) = (sv.integrate p s c').map fun r => (r.1, r.2.2))
    (fuel : ℕ) : ∀ (x y : St S C D), x.p = y.p → x.s = y.s → ∀ x', loop sv fuel x = .finished x' →
    ∃ y' l, loop sv fuel y = .finished y' ∧ y'.p = x'.p ∧ y'.s = x'.s ∧ x'.outs = x.outs ++ l ∧ y'.outs = y.outs ++ l := by
  induction fuel with
  | zero => intro x y _ _ x' h; simp [loop] at h
  | succ n ih =>
    intro x y hp hs x' h
    by_cases hg : x.p.t + x.p.dt ≤ x.p.T + 1e-12
    · have hg' : y.p.t + y.p.dt ≤ y.p.T + 1e-12 := by rwa [← hp]
      rcases hi : sv.integrate x.p x.s x.c with _ | r
      · rw [loop, if_pos hg] at h
        simp [hi] at h
      · have h1 := hm x.p x.s y.c x.c
        rw [hi, Option.map_some, Option.map_eq_some_iff] at h1
        obtain ⟨r', h2, h3⟩ := h1
        simp only [Prod.mk.injEq] at h3
        have hi' : sv.integrate y.p y.s y.c = some r' := by rw [← hp, ← hs]; exact h2
        have ho : outP y r' = outP x r := by unfold outP; rw [hp, h3.2]
        have key : (afterIntegrate sv y r').1.p = (afterIntegrate sv x r).1.p ∧ (afterIntegrate sv y r').1.s = (afterIntegrate sv x r).1.s ∧
            (afterIntegrate sv y r').2 = (afterIntegrate sv x r).2 := by
          unfold afterIntegrate h5update resultState
          dsimp only
          rw [h3.2, h3.1, hp]
          split_ifs <;> exact ⟨rfl, rfl, rfl⟩
        obtain ⟨-, o1⟩ := afterIntegrate_h5 sv x r
        obtain ⟨-, o2⟩ := afterIntegrate_h5 sv y r'
        rw [ho, h3.1] at o2
        rcases hx : afterIntegrate sv x r with ⟨x1, _ | _ | _⟩
        · rw [loop, if_pos hg] at h
          simp [hi, hx] at h
        · rw [hx] at key o1
          rw [loop_stop hg hi hx] at h
          injection h with h
          subst h
          exact ⟨_, [_], loop_stop hg' hi' (Prod.ext rfl key.2.2) n, key.1, key.2.1, o1, o2⟩
        · rw [hx] at key o1
          rw [loop_step hg hi hx] at h
          rw [loop_step hg' hi' (Prod.ext rfl key.2.2 : afterIntegrate sv y r' = ((afterIntegrate sv y r').1, some true))]
          obtain ⟨y', l, k1, k2, k3, k4, k5⟩ := ih _ _ key.1.symm key.2.1.symm x' h
          exact ⟨y', _ :: l, k1, k2, k3, by rw [k4, o1, List.append_assoc]; rfl, by rw [k5, o2, List.append_assoc]; rfl⟩
    · have hg' : ¬ y.p.t + y.p.dt ≤ y.p.T + 1e-12 := by rwa [← hp]
      rw [loop_guard hg] at h
      injection h with h
      subst h
      exact ⟨y, [], loop_guard hg' n, hp.symm, hs.symm, by simp, by simp⟩

/-- A state at the top of the loop of both runs, after full steps. -/
def Full (sv : Solver S C D) (p : Params) (s : S) (h5 : H5 D) (k : ℕ) (q : Params) (u : S) : Prop :=
  ∃ y, Reach sv (start sv p s h5) y ∧ y.p = q ∧ y.s = u ∧ y.took.length = k ∧ q = { p with t := p.t + k * p.dt, tstep := p.tstep + k } ∧
    ∀ o ∈ y.outs, o.1.t ≤ q.t

/-- A full step from such a state leads to such a state, if the end is more than a step away. -/
theorem Full.step {sv : Solver S C D} (hfix : FixedStep sv) (hk : ∀ n, sv.killed n = false) (hend : ∀ p s, sv.end_of_tstep p s = endPeriodic p s)
    (hcomp : ∀ s, sv.update_components s = s) (hm : ∀ p s c c', (sv.integrate p s c).map (fun r => (r.1, r.2.2)) = (sv.integrate p s c').map fun r => (r.1, r.2.2))
    {p : Params} (hdt : 2e-12 ≤ p.dt) {s : S} {h5 : H5 D} {k : ℕ} {x : St S C D} (h : Full sv p s h5 k x.p x.s) {r : S × C × ℝ × ℝ}
    (hi : sv.integrate x.p x.s x.c = some r) (hT : (outP x r).t + p.dt ≤ p.T - 1e-12) :
    Full sv p s h5 (k + 1) (outP x r) (sv.update (outP x r) r.1) := by
  obtain ⟨y, h1, h2, h3, h4, h5', hout⟩ := h
  have hd : x.p.dt = p.dt := by rw [h5']
  have hXT : x.p.T = p.T := by rw [h5']
  obtain ⟨s', c', e⟩ := hfix x.p x.s x.c
  rw [hi, Option.some.injEq] at e
  subst e
  have h6 := hm x.p x.s y.c x.c
  rw [hi, Option.map_some, Option.map_eq_some_iff] at h6
  obtain ⟨r', h7, h8⟩ := h6
  simp only [Prod.mk.injEq] at h8
  have hi' : sv.integrate y.p y.s y.c = some r' := by rw [h2, h3]; exact h7
  have ho : outP y r' = outP x (s', c', x.p.dt, x.p.dt) := by unfold outP; rw [h2, h8.2]
  have ht : (outP x (s', c', x.p.dt, x.p.dt)).t = x.p.t + p.dt := by simp [outP, hd]
  have hdd : (outP x (s', c', x.p.dt, x.p.dt)).dt = p.dt := hd
  have hTT : (outP x (s', c', x.p.dt, x.p.dt)).T = p.T := hXT
  have hg : y.p.t + y.p.dt ≤ y.p.T + 1e-12 := by
    rw [h2, hd, hXT]
    rw [ht] at hT
    have : (2e-12 : ℝ) = 2 * 1e-12 := by norm_num
    have h12 : (0 : ℝ) < 1e-12 := by norm_num
    linarith
  have ha := afterIntegrate_alive sv y r' (hk _)
  simp only [h5update, ho, h8.1, hend] at ha
  have hrs : resultState sv (outP x (s', c', x.p.dt, x.p.dt)) (sv.update (outP x (s', c', x.p.dt, x.p.dt)) s') =
      sv.update (outP x (s', c', x.p.dt, x.p.dt)) s' := by
    unfold resultState; split_ifs <;> simp [hcomp]
  rw [hrs, endPeriodic_go _ (by rw [hdd]; exact hdt) (Or.inl (by rw [hdd, hTT]; exact hT))] at ha
  refine ⟨_, .step h1 hg hi' ha, rfl, rfl, by simp [h4], ?_, fun o hmo => ?_⟩
  swap
  · rcases List.mem_append.1 hmo with hmo | hmo
    · have := hout o hmo
      have h12 : (0 : ℝ) < 2e-12 := by norm_num
      rw [ht]; linarith
    · rw [List.mem_singleton.1 hmo]
  unfold outP
  rw [h5']
  simp only [Params.mk.injEq, and_true, true_and]
  refine ⟨?_, by omega⟩
  push_cast; ring

/-- Every output of a run with fixed steps that is more than a step before the end is a state at the top of the loop of the run without the kill file. -/
theorem outs_reached {sv : Solver S C D} (hfix : FixedStep sv) (hk : ∀ n, sv.killed n = false) (hend : ∀ p s, sv.end_of_tstep p s = endPeriodic p s)
    (hcomp : ∀ s, sv.update_components s = s) (hm : ∀ p s c c', (sv.integrate p s c).map (fun r => (r.1, r.2.2)) = (sv.integrate p s c').map fun r => (r.1, r.2.2))
    (kl : ℕ → Bool) (p : Params) (hdt : 2e-12 ≤ p.dt) (s : S) (h0 h5 : H5 D) {x : St S C D}
    (hx : Seen (withKill sv kl) (start (withKill sv kl) p s h0) x) (i : ℕ) (o : Params × S) (ho : x.outs[i]? = some o) (hT : o.1.t + p.dt ≤ p.T - 1e-12) :
    Full sv p s h5 (i + 1) o.1 o.2 := by
  have h2e : (2e-12 : ℝ) = 2 * 1e-12 := by norm_num
  have h12 : (0 : ℝ) < 1e-12 := by norm_num
  have pass : ∀ x : St S C D, x.outs.length = x.took.length →
      (Full sv p s h5 x.took.length x.p x.s ∨ p.T - p.dt - 1e-12 < x.p.t + x.p.dt) →
      (∀ (i : ℕ) (o : Params × S), x.outs[i]? = some o → o.1.t + p.dt ≤ p.T - 1e-12 → Full sv p s h5 (i + 1) o.1 o.2) →
      ∀ r, sv.integrate x.p x.s x.c = some r → ∀ (i : ℕ) (o : Params × S), (afterIntegrate (withKill sv kl) x r).1.outs[i]? = some o →
        o.1.t + p.dt ≤ p.T - 1e-12 → Full sv p s h5 (i + 1) o.1 o.2 := by
    intro x hlen hQ hC r hi i o ho hT
    obtain ⟨-, c2⟩ := afterIntegrate_h5 (withKill sv kl) x r
    rw [c2] at ho
    by_cases hil : i < x.outs.length
    · rw [List.getElem?_append_left hil] at ho
      exact hC i o ho hT
    · rw [List.getElem?_append_right (by omega), List.getElem?_singleton] at ho
      split_ifs at ho with h0
      simp only [Option.some.injEq] at ho
      subst ho
      have hii : i = x.took.length := by omega
      subst hii
      rcases hQ with hQ | hQ
      · exact hQ.step hfix hk hend hcomp hm hdt hi hT
      · obtain ⟨s', c', e⟩ := hfix x.p x.s x.c
        rw [hi, Option.some.injEq] at e
        subst e
        simp only [outP] at hT
        linarith
  have inv : ∀ x, Reach (withKill sv kl) (start (withKill sv kl) p s h0) x → x.p.T = p.T ∧ x.outs.length = x.took.length ∧
      (Full sv p s h5 x.took.length x.p x.s ∨ p.T - p.dt - 1e-12 < x.p.t ∧ (x.p.dt = p.dt ∨ x.p.t + x.p.dt = p.T)) ∧
      (∀ (i : ℕ) (o : Params × S), x.outs[i]? = some o → o.1.t + p.dt ≤ p.T - 1e-12 → Full sv p s h5 (i + 1) o.1 o.2) := by
    intro x hx
    refine hx.inv (fun x => x.p.T = p.T ∧ x.outs.length = x.took.length ∧
      (Full sv p s h5 x.took.length x.p x.s ∨ p.T - p.dt - 1e-12 < x.p.t ∧ (x.p.dt = p.dt ∨ x.p.t + x.p.dt = p.T)) ∧
      (∀ (i : ℕ) (o : Params × S), x.outs[i]? = some o → o.1.t + p.dt ≤ p.T - 1e-12 → Full sv p s h5 (i + 1) o.1 o.2))
      ⟨rfl, rfl, Or.inl ⟨_, .refl, rfl, rfl, rfl, by simp [start], by simp [start]⟩, fun i o ho => by simp [start] at ho⟩ ?_
    intro x r x' ⟨q1, q2, q3, q4⟩ _ hi ha
    replace hi : sv.integrate x.p x.s x.c = some r := hi
    obtain ⟨-, -, b3, -, -, -, b7, -⟩ := afterIntegrate_basic (withKill sv kl) x r
    obtain ⟨-, c2⟩ := afterIntegrate_h5 (withKill sv kl) x r
    have hC := pass x q2 (q3.imp id fun h => by
      rcases h.2 with h2 | h2
      · rw [h2]; linarith
      · rw [h2]; linarith) q4 r hi
    rw [ha] at b3 b7 c2 hC
    have hkl : kl (x.p.tstep + 1) = false := by
      by_contra hne
      rw [Bool.not_eq_false] at hne
      have : (afterIntegrate (withKill sv kl) x r).2 = none := by
        unfold afterIntegrate
        dsimp only [h5update, withKill]
        rw [if_pos hne]
      rw [ha] at this
      cases this
    obtain ⟨s', c', e⟩ := hfix x.p x.s x.c
    rw [hi, Option.some.injEq] at e
    have hal := afterIntegrate_alive (withKill sv kl) x r hkl
    rw [ha] at hal
    set q := outP x r with hq
    have hrs : (h5update (withKill sv kl) q ((withKill sv kl).update q r.1) x.h5).1 = sv.update q r.1 := by
      simp only [h5update, resultState]; split_ifs <;> simp [withKill, hcomp]
    have he : ∀ z, (withKill sv kl).end_of_tstep q z = endPeriodic q z := fun z => hend q z
    simp only [he] at hal
    rw [hrs] at hal
    have hqt : q.t = x.p.t + x.p.dt := by rw [hq, e]; rfl
    have hqd : q.dt = x.p.dt := by rw [hq, e]; rfl
    have hqT : q.T = p.T := q1
    have hpx : x'.p = { q with dt := (endPeriodic q (sv.update q r.1)).1 } := (congrArg (fun z => z.1.p) hal)
    have hsx : x'.s = (endPeriodic q (sv.update q r.1)).2.1 := (congrArg (fun z => z.1.s) hal)
    have hgo : some true = some (!(endPeriodic q (sv.update q r.1)).2.2) := (congrArg (fun z => z.2) hal)
    refine ⟨by rw [b3, q1], by rw [b7, c2]; simp [q2], ?_, hC⟩
    by_cases hT : q.t + p.dt ≤ p.T - 1e-12
    · rcases q3 with q3 | ⟨q3, q5⟩
      · left
        have hd : q.dt = p.dt := by
          obtain ⟨y, -, -, -, -, h5', -⟩ := q3
          rw [hqd, h5']
        have hF := q3.step hfix hk hend hcomp hm hdt hi hT
        rw [endPeriodic_go _ (by rw [hd]; exact hdt) (Or.inl (by rw [hd, hqT]; exact hT))] at hpx hsx
        rw [hpx, hsx, b7, List.length_append]
        exact hF
      · exfalso
        rw [hqt] at hT
        rcases q5 with q5 | q5
        · rw [q5] at hT; linarith
        · rw [q5] at hT; linarith
    · right
      push Not at hT
      have hlt : p.T - p.dt - 1e-12 < x'.p.t := by rw [hpx]; show _ < q.t; linarith
      refine ⟨hlt, ?_⟩
      have hxt : x'.p.t = q.t := by rw [hpx]
      have hxd : x'.p.dt = (endPeriodic q (sv.update q r.1)).1 := by rw [hpx]
      rw [hxt, hxd]
      unfold endPeriodic at hgo ⊢
      split_ifs at hgo ⊢ with g1 g2
      · simp at hgo
      · right; show q.t + (q.T - q.t) = p.T; rw [hqT]; ring
      · rcases q3 with ⟨y, -, -, -, -, h5', -⟩ | ⟨q3, q5 | q5⟩
        · left; show q.dt = p.dt; rw [hqd, h5']
        · left; show q.dt = p.dt; rw [hqd, q5]
        · exfalso
          apply g1
          rw [hqt, q5, hqT, sub_self, abs_zero]
          norm_num
  obtain ⟨x1, h1, h2⟩ := hx
  obtain ⟨q1, q2, q3, q4⟩ := inv x1 h1
  rcases h2 with rfl | ⟨r, -, h3, rfl⟩
  · exact q4 i o ho hT
  · refine pass x1 q2 (q3.imp id fun h => ?_) q4 r h3 i o ho hT
    rcases h.2 with h2 | h2
    · rw [h2]; linarith
    · rw [h2]; linarith

/-- The loop does not make a new closure. -/
theorem loop_getintegrator (sv : Solver S C D) (g : S → C) (fuel : ℕ) (st : St S C D) : loop { sv with getintegrator := g } fuel st = loop sv fuel st := by
  induction fuel generalizing st with
  | zero => rfl
  | succ n ih =>
    rw [loop, loop]
    have e : ∀ r, afterIntegrate { sv with getintegrator := g } st r = afterIntegrate sv st r := fun _ => rfl
    simp only [e, ih]

/-- A list as a table. -/
theorem list_table {α : Type*} (l : List α) (a : α) : l = (List.range l.length).map fun j => l.getD j a := by
  apply List.ext_getElem
  · simp
  · intro i h1 h2
    simp [h1]

/-- **C103 (periodic solvers with RK4 or ForwardEuler).**  Take a run of `solve` at any moment after it has written a checkpoint, in its middle or ended by the kill
file.  The file holds the state after `i` of its steps, the last one in which a checkpoint was due, with time and number of that step.  If the end is more than a
step away from there, then `solve` from what is in the file, with time and number of the file and a new closure of the integrator, returns, the uninterrupted run
returns, both leave the same state and the same parameters, and the first hands to the output exactly what the second does after its step `i`. -/
theorem C103_periodic {V : Type*} [AddCommGroup V] [Module ℝ V] (F : V → V → V) (f : V → V) (hF : ∀ r u, F r u = f u) (est : V → V → V → PyF) (fu : ℕ)
    (m : Method) (hm : m = .RK4 ∨ m = .ForwardEuler) (rhs : V) (update : V → V) (results store : V → D) (load : D → V) (hload : ∀ u, load (store u) = u)
    (kl : ℕ → Bool) (p : Params) (hdt : 2e-12 ≤ p.dt) (s : V) (d : Disk D) (x : St V (Closure V) D)
    (hx : Seen (withKill (methodSolver F est fu m rhs update [(0, store)] results) kl)
      (start (withKill (methodSolver F est fu m rhs update [(0, store)] results) kl) p s (fresh d)) x)
    (hdue : ∃ o ∈ x.outs, o.1.tstep % p.checkpoint = 0 ∨ kl o.1.tstep = true) (hrest : x.h5.disk.c.t + p.dt ≤ p.T - 1e-12) :
    ∃ (i : ℕ) (data : D), 1 ≤ i ∧ i ≤ x.took.length ∧ x.h5.disk.c.levels 0 = some data ∧ x.h5.disk.c.tstep = p.tstep + i ∧ x.h5.disk.c.t = p.t + i * p.dt ∧
      ((p.tstep + i) % p.checkpoint = 0 ∨ kl (p.tstep + i) = true) ∧
      (∀ j, i < j → j ≤ x.took.length → ¬ ((p.tstep + j) % p.checkpoint = 0 ∨ kl (p.tstep + j) = true)) ∧
      ∀ (rhs' : V) (h5 h5' : H5 D) (fuel : ℕ), ⌈(p.T - x.h5.disk.c.t) / p.dt⌉₊ + 2 ≤ fuel →
      ∃ st st', solve (methodSolver F est fu m rhs update [(0, store)] results) (fuel + i) p s h5 = .returned st ∧
        solve (methodSolver F est fu m rhs' update [(0, store)] results) fuel { p with t := x.h5.disk.c.t, tstep := x.h5.disk.c.tstep } (load data) h5' =
          .returned st' ∧ st'.s = st.s ∧ st'.p = st.p ∧ st'.outs = st.outs.drop i := by
  have hfix := (memoryless_method F f hF est fu m hm rhs update [(0, store)] results).2
  have hmem : ∀ p s c c', ((methodSolver F est fu m rhs update [(0, store)] results).integrate p s c).map (fun r => (r.1, r.2.2)) =
      ((methodSolver F est fu m rhs update [(0, store)] results).integrate p s c').map fun r => (r.1, r.2.2) := fun p s c c' =>
    (memoryless_method F f hF est fu m hm rhs update [(0, store)] results).1.integrate p p.T s c c'
  have hC := (C41_consistent (withKill (methodSolver F est fu m rhs update [(0, store)] results) kl) (by simp [withKill, methodSolver])
    (by simp [withKill, methodSolver]) (by simp [withKill, methodSolver]) p s d x hx).1
  have hK := (C40_one_output_per_step _ p s (fresh d) x hx).1
  have hlen : x.outs.length = x.took.length := by simpa using congrArg List.length hK
  have htab := list_table x.outs (p, s)
  have hts : ∀ j < x.took.length, (x.outs.getD j (p, s)).1.tstep = p.tstep + (j + 1) := by
    intro j hj
    have h1 : (x.outs.map fun o => o.1.tstep)[j]? = some (p.tstep + 1 + j) := by
      rw [hK, List.getElem?_range' hj]; simp
    rw [List.getElem?_map, List.getElem?_eq_getElem (by omega), Option.map_some, Option.some.injEq] at h1
    rw [List.getD_eq_getElem _ _ (by omega), h1]
    omega
  rcases hl : lastDue (withKill (methodSolver F est fu m rhs update [(0, store)] results) kl) p.checkpoint x.outs with _ | o
  · exfalso
    obtain ⟨o, ho, hd⟩ := hdue
    unfold lastDue at hl
    rw [List.getLast?_eq_none_iff, List.filter_eq_nil_iff] at hl
    exact hl o ho (decide_eq_true hd)
  obtain ⟨c1, c2, c3⟩ := hC o hl
  unfold lastDue at hl
  rw [htab] at hl
  obtain ⟨i, hi, rfl, hd, hlast⟩ := getLast_filter_range _ _ _ hl
  rw [hlen] at hi hlast
  have hfull : ∀ h5, Full (methodSolver F est fu m rhs update [(0, store)] results) p s h5 (i + 1) (x.outs.getD i (p, s)).1 (x.outs.getD i (p, s)).2 := fun h5 =>
    outs_reached hfix (fun _ => rfl) (fun _ _ => rfl) (fun _ => rfl) hmem kl p hdt s (fresh d) h5 hx i _ (by
      rw [List.getD_eq_getElem _ _ (by omega), List.getElem?_eq_getElem]) (by rw [← c3]; exact hrest)
  have hp : (x.outs.getD i (p, s)).1 = { p with t := x.h5.disk.c.t, tstep := x.h5.disk.c.tstep } := by
    obtain ⟨y, -, -, -, -, e, -⟩ := hfull (fresh d)
    rw [c2, c3, e]
  have ht : x.h5.disk.c.t = p.t + (i + 1 : ℕ) * p.dt := by
    obtain ⟨y, -, -, -, -, e, -⟩ := hfull (fresh d)
    rw [c3, e]
  refine ⟨i + 1, _, by omega, hi, c1 (0, store) (by simp [withKill, methodSolver]), c2.trans (hts i hi), ht, ?_, fun j h1 h2 => ?_, ?_⟩
  · have := of_decide_eq_true hd
    rw [hts i hi] at this
    exact this
  · obtain ⟨j, rfl⟩ := Nat.exists_eq_add_of_le' (show 1 ≤ j by omega)
    have := of_decide_eq_false (hlast j (by omega) (by omega))
    rw [hts j (by omega)] at this
    exact this
  · intro rhs' h5 h5' fuel hf
    have h12 : (0 : ℝ) < 1e-12 := by norm_num
    have h2e : (2e-12 : ℝ) = 2 * 1e-12 := by norm_num
    have hpos : 0 < p.dt := by linarith
    obtain ⟨y, y1, y2, y3, y4, -, -⟩ := hfull h5
    obtain ⟨k, k1, k2⟩ := y1.loop
    have hk : k = i + 1 := by rw [y4] at k2; simp at k2; omega
    subst hk
    obtain ⟨x2, k, l, l1, l2, -, l3, -⟩ := loop_periodic (methodSolver F est fu m rhs' update [(0, store)] results) (fun _ _ => rfl)
      (memoryless_method F f hF est fu m hm rhs' update [(0, store)] results).2 (fun _ => rfl) p.dt ⌈(p.T - x.h5.disk.c.t) / p.dt⌉₊ fuel
      (start (methodSolver F est fu m rhs' update [(0, store)] results) { p with t := x.h5.disk.c.t, tstep := x.h5.disk.c.tstep }
        (load (store (x.outs.getD i (p, s)).2)) h5') (by omega) rfl (show x.h5.disk.c.t < p.T by linarith)
      (show x.h5.disk.c.t + p.dt ≤ p.T + 1e-12 by linarith) (by
        show p.T - x.h5.disk.c.t ≤ _
        have := (div_le_iff₀ hpos).1 (Nat.le_ceil ((p.T - x.h5.disk.c.t) / p.dt))
        linarith)
    have l1' : loop (methodSolver F est fu m rhs update [(0, store)] results) fuel
        (start (methodSolver F est fu m rhs' update [(0, store)] results) { p with t := x.h5.disk.c.t, tstep := x.h5.disk.c.tstep }
          (load (store (x.outs.getD i (p, s)).2)) h5') = .finished x2 := by
      rw [← l1, ← loop_getintegrator (methodSolver F est fu m rhs update [(0, store)] results) (fun s => SpectralDNS.getintegrator rhs' s)]
      rfl
    obtain ⟨y', l', m1, m2, m3, m4, m5⟩ := loop_forget hmem fuel _ y (by rw [y2, hp]) (by rw [y3]; exact hload _) x2 l1'
    have m1' := (k1 fuel).trans m1
    obtain ⟨st', n1, n2, n3, n4, -, n6, -⟩ := solve_of_finished l1
    obtain ⟨st, p1, p2, p3, p4, -, p6, -⟩ := solve_of_finished m1'
    have hyl : y.outs.length = i + 1 := by
      have := (C40_one_output_per_step _ p s h5 y ⟨y, y1, Or.inl rfl⟩).1
      have := congrArg List.length this
      simpa [y4] using this
    have hne' : st'.took ≠ [] := by
      rw [n3, l2]
      obtain ⟨k, rfl⟩ : ∃ j, k = j + 1 := ⟨k - 1, by omega⟩
      simp [List.replicate_succ]
    have hne : st.took ≠ [] := by
      have h1 := (C40_one_output_per_step _ p s h5 y' (loop_finished_seen m1')).1
      have h2 := congrArg List.length h1
      rw [m5] at h2
      rw [p3]
      intro h0
      rw [h0] at h2
      simp at h2
      simp [h2.1] at hyl
    obtain ⟨-, -, e2⟩ := C28_ends_at_T _ (fun _ _ => rfl) p s h5 (fuel + (i + 1)) st p1 hne
    obtain ⟨-, -, e2'⟩ := C28_ends_at_T _ (fun _ _ => rfl) _ _ h5' fuel st' n1 hne'
    refine ⟨st, st', e2, e2', ?_, ?_, ?_⟩
    · rw [n6, p6]; exact m3.symm
    · rw [n2, p2, m2]
    · rw [n4, p4, m4, m5, List.drop_left' hyl, List.nil_append]

/-- Full steps are taken as long as the end is more than a step away. -/
theorem exists_full {sv : Solver S C D} (hfix : FixedStep sv) (hk : ∀ n, sv.killed n = false) (hend : ∀ p s, sv.end_of_tstep p s = endPeriodic p s)
    (hcomp : ∀ s, sv.update_components s = s) (hm : ∀ p s c c', (sv.integrate p s c).map (fun r => (r.1, r.2.2)) = (sv.integrate p s c').map fun r => (r.1, r.2.2))
    {p : Params} (hdt : 2e-12 ≤ p.dt) (s : S) (h5 : H5 D) (k : ℕ) (hT : p.t + k * p.dt + p.dt ≤ p.T - 1e-12) : ∃ q u, Full sv p s h5 k q u := by
  induction k with
  | zero => exact ⟨_, _, _, .refl, rfl, rfl, rfl, by simp, by simp⟩
  | succ k ih =>
    have h2e : (2e-12 : ℝ) = 2 * 1e-12 := by norm_num
    push_cast at hT
    obtain ⟨q, u, y, h1, rfl, rfl, h2, h3, h4⟩ := ih (by linarith)
    obtain ⟨s', c', e⟩ := hfix y.p y.s y.c
    have hd : y.p.dt = p.dt := by rw [h3]
    refine ⟨_, _, Full.step hfix hk hend hcomp hm hdt ⟨y, h1, rfl, rfl, h2, h3, h4⟩ e ?_⟩
    have : y.p.t = p.t + k * p.dt := by rw [h3]
    simp only [outP, hd, this]
    linarith

/-- RK4 for `u' = -u` with the time step a tenth up to 1.05, checkpoints every fourth step: continued from the file after eight steps the run
ends as the uninterrupted one, with the same shortened last step. -/
example (h5 : H5 ℝ) (est : ℝ → ℝ → ℝ → PyF) :
    let sv := methodSolver (fun _ u : ℝ => -u) est 5 .RK4 0 id [(0, id)] id
    let p : Params := ⟨0, 0.1, 1.05, 0, 1, 4, true⟩
    ∃ x data, Seen sv (start sv p 1 (fresh ⟨⟨fun _ => none, 0, 0⟩, []⟩)) x ∧ x.h5.disk.c.levels 0 = some data ∧ x.h5.disk.c.tstep = 8 ∧
      ∃ st st', solve sv (20 + 8) p 1 h5 = .returned st ∧ solve sv 20 { p with t := x.h5.disk.c.t, tstep := x.h5.disk.c.tstep } data h5 = .returned st' ∧
        st'.s = st.s ∧ st'.p = st.p := by
  intro sv p
  have hM := memoryless_method (fun _ u : ℝ => -u) (fun u => -u) (fun _ _ => rfl) est 5 .RK4 (Or.inl rfl) 0 id [(0, id)] id
  obtain ⟨q, u, x, h1, h2, h3, h4, h6, h7⟩ := exists_full (sv := sv) hM.2 (fun _ => rfl) (fun _ _ => rfl) (fun _ => rfl)
    (fun p s c c' => hM.1.integrate p p.T s c c') (p := p) (by norm_num [p]) 1 (fresh ⟨⟨fun _ => none, 0, 0⟩, []⟩) 8 (by norm_num [p])
  have hx : Seen sv (start sv p 1 (fresh ⟨⟨fun _ => none, 0, 0⟩, []⟩)) x := ⟨x, h1, Or.inl rfl⟩
  have hK := (C40_one_output_per_step sv p 1 _ x hx).1
  have hdue : ∃ o ∈ x.outs, o.1.tstep % p.checkpoint = 0 ∨ (fun _ : ℕ => false) o.1.tstep = true := by
    have : 8 ∈ x.outs.map fun o => o.1.tstep := by rw [hK, h4]; simp [List.mem_range'_1, p]
    obtain ⟨o, ho, e⟩ := List.mem_map.1 this
    exact ⟨o, ho, Or.inl (by rw [e]; simp [p])⟩
  have hC := (C41_consistent sv (by simp [sv, methodSolver]) (by simp [sv, methodSolver]) (fun _ _ _ => rfl) p 1 _ x hx).1
  have ht : x.h5.disk.c.t ≤ 0.8 := by
    rcases hl : lastDue sv p.checkpoint x.outs with _ | o
    · exfalso
      obtain ⟨o, ho, hd⟩ := hdue
      unfold lastDue at hl
      rw [List.getLast?_eq_none_iff, List.filter_eq_nil_iff] at hl
      exact hl o ho (decide_eq_true hd)
    · rw [(hC o hl).2.2]
      refine (h7 o (List.mem_of_mem_filter (List.mem_of_getLast? hl))).trans ?_
      rw [h6]
      norm_num [p]
  obtain ⟨i, data, g1, g2, g3, g4, g5, g6, g7, H⟩ := C103_periodic (fun _ u : ℝ => -u) (fun u => -u) (fun _ _ => rfl) est 5 .RK4 (Or.inl rfl) 0 id id id id
    (fun _ => rfl) (fun _ => false) p (by norm_num [p]) 1 _ x hx hdue (by
      have : p.dt = 0.1 := rfl
      have h' : p.T = 1.05 := rfl
      rw [this, h']
      norm_num at ht ⊢
      linarith)
  rw [h4] at g2 g7
  have hi : i = 8 := by
    by_contra hne
    exact g7 8 (by omega) le_rfl (Or.inl (by simp [p]))
  subst hi
  obtain ⟨st, st', a1, a2, a3, a4, -⟩ := H 0 h5 h5 20 (by
    rw [g5]
    have : (p.T - (p.t + (8 : ℕ) * p.dt)) / p.dt ≤ 3 := by norm_num [p]
    have := Nat.ceil_le.2 (show (p.T - (p.t + (8 : ℕ) * p.dt)) / p.dt ≤ (3 : ℕ) by exact_mod_cast this)
    omega)
  exact ⟨x, data, hx, g3, g4, st, st', a1, a2, a3, a4⟩

end SpectralDNS.Solve

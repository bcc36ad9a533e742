import Mathlib.Tactic.Linarith
import Mathlib.Tactic.NormNum
import Mathlib.Tactic.Ring
import Verif.Model.Solve

/-!
# General facts on the time loop
-/

namespace SpectralDNS.Solve

variable {S C D : Type*}

/-- States at the top of the loop reached from `st₀`. -/
inductive Reach (sv : Solver S C D) (st₀ : St S C D) : St S C D → Prop where
  | refl : Reach sv st₀ st₀
  | step {st st' r} : Reach sv st₀ st → st.p.t + st.p.dt ≤ st.p.T + 1e-12 → sv.integrate st.p st.s st.c = some r →
      afterIntegrate sv st r = (st', some true) → Reach sv st₀ st'

/-- States reached from `st₀`, including those in which the loop is left in the middle of a pass. -/
def Seen (sv : Solver S C D) (st₀ st' : St S C D) : Prop :=
  ∃ st, Reach sv st₀ st ∧ (st' = st ∨ ∃ r, st.p.t + st.p.dt ≤ st.p.T + 1e-12 ∧ sv.integrate st.p st.s st.c = some r ∧
    st' = (afterIntegrate sv st r).1)

theorem Reach.inv {sv : Solver S C D} {st₀ st' : St S C D} (h : Reach sv st₀ st') (P : St S C D → Prop) (h0 : P st₀)
    (hs : ∀ st r st', P st → st.p.t + st.p.dt ≤ st.p.T + 1e-12 → sv.integrate st.p st.s st.c = some r →
      afterIntegrate sv st r = (st', some true) → P st') : P st' := by
  induction h with
  | refl => exact h0
  | step _ hg hi ha ih => exact hs _ _ _ ih hg hi ha

theorem Seen.inv {sv : Solver S C D} {st₀ st' : St S C D} (h : Seen sv st₀ st') (P : St S C D → Prop) (h0 : P st₀)
    (hs : ∀ st r, P st → st.p.t + st.p.dt ≤ st.p.T + 1e-12 → sv.integrate st.p st.s st.c = some r →
      P (afterIntegrate sv st r).1) : P st' := by
  obtain ⟨st, hr, h⟩ := h
  have hP : P st := hr.inv P h0 fun st r st' h1 h2 h3 h4 => by
    have := hs st r h1 h2 h3
    rwa [h4] at this
  rcases h with rfl | ⟨r, h1, h2, rfl⟩
  · exact hP
  · exact hs st r hP h1 h2

theorem Reach.trans {sv : Solver S C D} {a b c : St S C D} (h : Reach sv a b) (h' : Reach sv b c) : Reach sv a c := by
  induction h' with
  | refl => exact h
  | step _ hg hi ha ih => exact .step ih hg hi ha

/-- How the loop can end normally. -/
theorem loop_finished {sv : Solver S C D} {fuel : ℕ} {st st' : St S C D} (h : loop sv fuel st = .finished st') :
    (Reach sv st st' ∧ ¬ st'.p.t + st'.p.dt ≤ st'.p.T + 1e-12) ∨
    ∃ st1 r, Reach sv st st1 ∧ st1.p.t + st1.p.dt ≤ st1.p.T + 1e-12 ∧ sv.integrate st1.p st1.s st1.c = some r ∧
      afterIntegrate sv st1 r = (st', some false) := by
  induction fuel generalizing st with
  | zero => simp [loop] at h
  | succ n ih =>
    rw [loop] at h
    by_cases hg : st.p.t + st.p.dt ≤ st.p.T + 1e-12
    · rw [if_pos hg] at h
      rcases hi : sv.integrate st.p st.s st.c with _ | r
      · simp [hi] at h
      · simp only [hi] at h
        rcases ha : afterIntegrate sv st r with ⟨st1, _ | _ | _⟩
        · simp [ha] at h
        · simp only [ha] at h
          injection h with h
          subst h
          exact Or.inr ⟨st, r, .refl, hg, hi, ha⟩
        · simp only [ha] at h
          have hr : Reach sv st st1 := .step .refl hg hi ha
          rcases ih h with ⟨h1, h2⟩ | ⟨s2, r2, h1, h2⟩
          · exact Or.inl ⟨hr.trans h1, h2⟩
          · exact Or.inr ⟨s2, r2, hr.trans h1, h2⟩
    · rw [if_neg hg] at h
      injection h with h
      subst h
      exact Or.inl ⟨.refl, hg⟩

/-- How the loop can end by `sys.exit`. -/
theorem loop_exited {sv : Solver S C D} {fuel : ℕ} {st st' : St S C D} (h : loop sv fuel st = .exited st') :
    ∃ st1 r, Reach sv st st1 ∧ st1.p.t + st1.p.dt ≤ st1.p.T + 1e-12 ∧ sv.integrate st1.p st1.s st1.c = some r ∧
      afterIntegrate sv st1 r = (st', none) := by
  induction fuel generalizing st with
  | zero => simp [loop] at h
  | succ n ih =>
    rw [loop] at h
    by_cases hg : st.p.t + st.p.dt ≤ st.p.T + 1e-12
    · rw [if_pos hg] at h
      rcases hi : sv.integrate st.p st.s st.c with _ | r
      · simp [hi] at h
      · simp only [hi] at h
        rcases ha : afterIntegrate sv st r with ⟨st1, _ | _ | _⟩
        · simp only [ha] at h
          injection h with h
          subst h
          exact ⟨st, r, .refl, hg, hi, ha⟩
        · simp [ha] at h
        · simp only [ha] at h
          have hr : Reach sv st st1 := .step .refl hg hi ha
          obtain ⟨s2, r2, h1, h2⟩ := ih h
          exact ⟨s2, r2, hr.trans h1, h2⟩
    · rw [if_neg hg] at h
      simp at h

theorem loop_finished_seen {sv : Solver S C D} {fuel : ℕ} {st st' : St S C D} (h : loop sv fuel st = .finished st') :
    Seen sv st st' := by
  rcases loop_finished h with ⟨h1, -⟩ | ⟨s1, r, h1, h2, h3, h4⟩
  · exact ⟨st', h1, Or.inl rfl⟩
  · exact ⟨s1, h1, Or.inr ⟨r, h2, h3, by rw [h4]⟩⟩

theorem loop_exited_seen {sv : Solver S C D} {fuel : ℕ} {st st' : St S C D} (h : loop sv fuel st = .exited st') :
    Seen sv st st' := by
  obtain ⟨s1, r, h1, h2, h3, h4⟩ := loop_exited h
  exact ⟨s1, h1, Or.inr ⟨r, h2, h3, by rw [h4]⟩⟩

/-- One pass that goes on. -/
theorem loop_step {sv : Solver S C D} {st st' : St S C D} {r : S × C × ℝ × ℝ}
    (hg : st.p.t + st.p.dt ≤ st.p.T + 1e-12) (hi : sv.integrate st.p st.s st.c = some r)
    (ha : afterIntegrate sv st r = (st', some true)) (fuel : ℕ) : loop sv (fuel + 1) st = loop sv fuel st' := by
  rw [loop, if_pos hg]
  simp only [hi, ha]

/-- One pass that stops. -/
theorem loop_stop {sv : Solver S C D} {st st' : St S C D} {r : S × C × ℝ × ℝ}
    (hg : st.p.t + st.p.dt ≤ st.p.T + 1e-12) (hi : sv.integrate st.p st.s st.c = some r)
    (ha : afterIntegrate sv st r = (st', some false)) (fuel : ℕ) : loop sv (fuel + 1) st = .finished st' := by
  rw [loop, if_pos hg]
  simp only [hi, ha]

theorem loop_guard {sv : Solver S C D} {st : St S C D} (hg : ¬ st.p.t + st.p.dt ≤ st.p.T + 1e-12) (fuel : ℕ) :
    loop sv (fuel + 1) st = .finished st := by
  rw [loop, if_neg hg]

/-- The parts of a pass that do not depend on how it ends. -/
theorem afterIntegrate_basic (sv : Solver S C D) (st : St S C D) (r : S × C × ℝ × ℝ) :
    (afterIntegrate sv st r).1.p.t = st.p.t + r.2.2.2 ∧ (afterIntegrate sv st r).1.p.tstep = st.p.tstep + 1 ∧
    (afterIntegrate sv st r).1.p.T = st.p.T ∧ (afterIntegrate sv st r).1.p.write_result = st.p.write_result ∧
    (afterIntegrate sv st r).1.p.checkpoint = st.p.checkpoint ∧ (afterIntegrate sv st r).1.p.truncate = st.p.truncate ∧
    (afterIntegrate sv st r).1.took = st.took ++ [r.2.2.2] ∧ (afterIntegrate sv st r).1.c = r.2.1 := by
  unfold afterIntegrate
  dsimp only
  split_ifs <;> simp

/-- The parameters at the file output of the pass. -/
noncomputable def outP (st : St S C D) (r : S × C × ℝ × ℝ) : Params :=
  { st.p with dt := r.2.2.1, t := st.p.t + r.2.2.2, tstep := st.p.tstep + 1 }

theorem afterIntegrate_h5 (sv : Solver S C D) (st : St S C D) (r : S × C × ℝ × ℝ) :
    (afterIntegrate sv st r).1.h5 = (h5update sv (outP st r) (sv.update (outP st r) r.1) st.h5).2.1 ∧
    (afterIntegrate sv st r).1.outs = st.outs ++ [(outP st r, sv.update (outP st r) r.1)] := by
  unfold afterIntegrate outP
  dsimp only
  split_ifs <;> simp

/-- A pass without kill file. -/
theorem afterIntegrate_alive (sv : Solver S C D) (st : St S C D) (r : S × C × ℝ × ℝ)
    (hk : sv.killed (st.p.tstep + 1) = false) :
    afterIntegrate sv st r =
      let p := outP st r
      let s := sv.update p r.1
      let o := h5update sv p s st.h5
      let e := sv.end_of_tstep p o.1
      (⟨{ p with dt := e.1 }, e.2.1, r.2.1, o.2.1, st.took ++ [r.2.2.2],
        st.outs ++ [(p, s)]⟩, some (!e.2.2)) := by
  have : (h5update sv (outP st r) (sv.update (outP st r) r.1) st.h5).2.2 = false := hk
  unfold afterIntegrate
  dsimp only
  rw [if_neg]
  · rfl
  · simp [h5update, hk]

/-- A pass with kill file. -/
theorem afterIntegrate_killed (sv : Solver S C D) (st : St S C D) (r : S × C × ℝ × ℝ)
    (hk : sv.killed (st.p.tstep + 1) = true) :
    (afterIntegrate sv st r).2 = none ∧ (afterIntegrate sv st r).1.p = outP st r ∧
    (afterIntegrate sv st r).1.s = (h5update sv (outP st r) (sv.update (outP st r) r.1) st.h5).1 := by
  unfold afterIntegrate
  dsimp only
  rw [if_pos]
  · exact ⟨rfl, rfl, rfl⟩
  · simp [h5update, hk]

theorem afterIntegrate_none (sv : Solver S C D) (st : St S C D) (r : S × C × ℝ × ℝ) :
    (afterIntegrate sv st r).2 = none ↔ sv.killed (st.p.tstep + 1) = true := by
  constructor
  · intro h
    by_contra hk
    rw [afterIntegrate_alive sv st r (by simpa using hk)] at h
    simp at h
  · exact fun h => (afterIntegrate_killed sv st r h).1

end SpectralDNS.Solve

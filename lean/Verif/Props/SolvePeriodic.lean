import Verif.Props.SolveSplit
import Verif.Props.SolveRuns
import Verif.Props.GlobalSolutions

/-!
# C101: what a call of `solve` computes with the periodic solvers
-/

namespace SpectralDNS.Solve

open Spec

variable {S C D : Type*}

section
variable {V : Type*} [AddCommGroup V] [Module ℝ V]

/-- The outputs of the loop are the recorded states, with the times reached. -/
def Timed : ℝ → List (Params × V) → List (V × ℝ × ℝ) → Prop
  | _, [], [] => True
  | t, q :: qs, o :: os => q.2 = o.1 ∧ q.1.t = t + o.2.2 ∧ Timed (t + o.2.2) qs os
  | _, _, _ => False

omit [AddCommGroup V] [Module ℝ V] in
theorem timed_snoc (q : Params × V) (o : V × ℝ × ℝ) (h1 : q.2 = o.1) : ∀ (qs : List (Params × V)) (os : List (V × ℝ × ℝ)) (t : ℝ), Timed t qs os →
    q.1.t = t + (os.map fun o => o.2.2).sum + o.2.2 → Timed t (qs ++ [q]) (os ++ [o])
  | [], [], t, _, h2 => ⟨h1, by simpa using h2, trivial⟩
  | a :: qs, b :: os, t, ⟨k1, k2, k3⟩, h2 => ⟨k1, k2, timed_snoc q o h1 qs os _ k3 (by rw [h2]; simp [add_assoc])⟩
  | [], _ :: _, _, h, _ => h.elim
  | _ :: _, [], _, h, _ => h.elim

theorem within_timed {E : Type*} [NormedAddCommGroup E] [NormedSpace ℝ E] {y : ℝ → E} {e : ℝ} : ∀ (qs : List (Params × E)) (os : List (E × ℝ × ℝ)) (t : ℝ),
    Timed t qs os → Within y e t os → ∀ q ∈ qs, ‖q.2 - y q.1.t‖ ≤ e
  | [], _, _, _, _ => fun q h => absurd h (by simp)
  | a :: qs, b :: os, t, ⟨k1, k2, k3⟩, ⟨w1, w2⟩ => fun q hq => by
    rcases List.mem_cons.1 hq with rfl | hq
    · rw [k1, k2]; exact w1
    · exact within_timed qs os _ k3 w2 q hq
  | _ :: _, [], _, h, _ => h.elim

theorem run_snoc (F : V → V → V) (est : V → V → V → PyF) (fuel : ℕ) (m : Method) (dt : ℝ) : ∀ (ds : List ℝ) (k : ℕ) (c c1 : Closure V)
    (outs : List (V × ℝ × ℝ)) (r : Closure V × ℝ × ℝ), runOutputs F est fuel m k ds c = some outs → runSteps F est fuel m k ds c = some c1 →
    SpectralDNS.integrate F est fuel m dt (k + ds.length) c1 = some r →
    runOutputs F est fuel m k (ds ++ [dt]) c = some (outs ++ [(r.1.u0, r.2)]) ∧ runSteps F est fuel m k (ds ++ [dt]) c = some r.1
  | [], k, c, c1, outs, r, h1, h2, h3 => by
    simp only [runOutputs, runSteps, Option.some.injEq] at h1 h2
    subst h1 h2
    simp only [List.length_nil, add_zero] at h3
    simp [runOutputs, runSteps, h3]
  | d :: ds, k, c, c1, outs, r, h1, h2, h3 => by
    simp only [runOutputs, runSteps, List.cons_append] at h1 h2 ⊢
    rcases hi : SpectralDNS.integrate F est fuel m d k c with _ | x
    · simp [hi] at h1
    · simp only [hi, Option.map_eq_some_iff] at h1 h2 ⊢
      obtain ⟨os, h1, rfl⟩ := h1
      obtain ⟨k1, k2⟩ := run_snoc F est fuel m dt ds (k + 1) x.1 c1 os r h1 h2 (by
        rw [show k + 1 + ds.length = k + (d :: ds).length by simp; omega]; exact h3)
      exact ⟨⟨_, k1, rfl⟩, k2⟩

/-- The passes of the loop are the calls of `integrate` of a run. -/
theorem periodic_seen (F : V → V → V) (est : V → V → V → PyF) (fuel : ℕ) (m : Method) (rhs : V) (levels : List (ℕ × (V → D))) (results : V → D)
    (p : Params) (s : V) (h5 : H5 D) {x : St V (Closure V) D}
    (hx : Seen (methodSolver F est fuel m rhs id levels results) (start (methodSolver F est fuel m rhs id levels results) p s h5) x) :
    ∃ ds outs, runOutputs F est fuel m p.tstep ds (SpectralDNS.getintegrator rhs s) = some outs ∧
      runSteps F est fuel m p.tstep ds (SpectralDNS.getintegrator rhs s) = some x.c ∧ x.s = x.c.u0 ∧ x.p.tstep = p.tstep + ds.length ∧
      x.took = (outs.map fun o => o.2.2) ∧ x.p.t = p.t + x.took.sum ∧ Timed p.t x.outs outs ∧
      (x.took = [] ∧ x.s = s ∨ ∃ q ∈ x.outs, q.2 = x.s ∧ q.1.t = x.p.t) ∧
      (FixedStep (methodSolver F est fuel m rhs id levels results) → ds = x.took) := by
  refine hx.inv (fun x => ∃ ds outs, runOutputs F est fuel m p.tstep ds (SpectralDNS.getintegrator rhs s) = some outs ∧
      runSteps F est fuel m p.tstep ds (SpectralDNS.getintegrator rhs s) = some x.c ∧ x.s = x.c.u0 ∧ x.p.tstep = p.tstep + ds.length ∧
      x.took = (outs.map fun o => o.2.2) ∧ x.p.t = p.t + x.took.sum ∧ Timed p.t x.outs outs ∧
      (x.took = [] ∧ x.s = s ∨ ∃ q ∈ x.outs, q.2 = x.s ∧ q.1.t = x.p.t) ∧
      (FixedStep (methodSolver F est fuel m rhs id levels results) → ds = x.took))
    ⟨[], [], rfl, rfl, rfl, by simp, rfl, by simp, trivial, Or.inl ⟨rfl, rfl⟩, fun _ => rfl⟩ ?_
  rintro x r ⟨ds, outs, h1, h2, h3, h4, h5', h6, h7, -, h9⟩ _ hi
  have hi0 := hi
  simp only [methodSolver, methodIntegrate, Option.map_eq_some_iff] at hi
  obtain ⟨w, hw, rfl⟩ := hi
  have hc : { x.c with u0 := x.s } = x.c := by rw [h3]
  rw [hc, h4] at hw
  obtain ⟨k1, k2⟩ := run_snoc F est fuel m x.p.dt ds p.tstep _ x.c outs w h1 h2 hw
  rw [afterIntegrate_alive _ _ _ rfl]
  have hrs : ∀ (q : Params) (y : V), resultState (methodSolver F est fuel m rhs id levels results) q y = y := fun q y => by
    unfold resultState; split_ifs <;> rfl
  have hen : ∀ (q : Params) (y : V), (endPeriodic q y).2.1 = y := fun q y => by
    unfold endPeriodic; split_ifs <;> rfl
  have hs : (endPeriodic (outP x (w.1.u0, w.1, w.2.1, w.2.2)) (resultState (methodSolver F est fuel m rhs id levels results)
      (outP x (w.1.u0, w.1, w.2.1, w.2.2)) w.1.u0)).2.1 = w.1.u0 := by rw [hen, hrs]
  refine ⟨ds ++ [x.p.dt], outs ++ [(w.1.u0, w.2)], k1, k2, hs, ?_, ?_, ?_, ?_, Or.inr ⟨(outP x (w.1.u0, w.1, w.2.1, w.2.2), w.1.u0), ?_, hs.symm, rfl⟩, ?_⟩
  · simp [outP, h4]; omega
  · simp [h5']
  · simp [outP, h6]; ring
  · exact timed_snoc _ _ rfl _ _ _ h7 (by simp [outP, h6, h5'])
  · simp [methodSolver]
  · intro hf
    obtain ⟨s', c', e⟩ := hf x.p x.s x.c
    rw [hi0] at e
    simp only [Option.some.injEq, Prod.mk.injEq] at e
    rw [h9 hf]
    simp [e.2.2.2]

end

/-- With fixed steps, no step is negative and only the last may be longer than `dt`, by at most 1e-12; unless a step ends exactly at `T + 1e-12`. -/
theorem fixed_steps (sv : Solver S C D) (hend : ∀ p s, sv.end_of_tstep p s = endPeriodic p s) (hfix : FixedStep sv) (hk : ∀ n, sv.killed n = false)
    (p : Params) (hdt : 0 < p.dt) (hne : ∀ k : ℕ, p.t + k * p.dt ≠ p.T + 1e-12) (s : S) (h5 : H5 D) {x : St S C D}
    (hx : Seen sv (start sv p s h5) x) : ∀ d ∈ x.took, 0 ≤ d ∧ d ≤ p.dt + 1e-12 := by
  have h12 : (0 : ℝ) < 1e-12 := by norm_num
  have key : ∀ x, Reach sv (start sv p s h5) x → x.p.T = p.T ∧ (0 ≤ x.p.dt ∧ x.p.dt ≤ p.dt + 1e-12) ∧ (∀ d ∈ x.took, 0 ≤ d ∧ d ≤ p.dt + 1e-12) ∧
      (x.p.dt = p.dt ∧ x.p.t = p.t + x.took.length * p.dt ∨ x.p.t + x.p.dt = p.T) := fun x hr => by
    refine hr.inv (fun x => x.p.T = p.T ∧ (0 ≤ x.p.dt ∧ x.p.dt ≤ p.dt + 1e-12) ∧ (∀ d ∈ x.took, 0 ≤ d ∧ d ≤ p.dt + 1e-12) ∧
      (x.p.dt = p.dt ∧ x.p.t = p.t + x.took.length * p.dt ∨ x.p.t + x.p.dt = p.T))
      ⟨rfl, ⟨hdt.le, by linarith⟩, by simp, Or.inl ⟨rfl, by simp⟩⟩ ?_
    rintro x r x' ⟨e1, e2, e3, e4⟩ hg hi ha
    obtain ⟨s', c', hi'⟩ := hfix x.p x.s x.c
    rw [hi'] at hi
    simp only [Option.some.injEq] at hi
    subst hi
    rw [afterIntegrate_alive sv x _ (hk _)] at ha
    simp only [hend, endPeriodic, outP, Prod.mk.injEq, Option.some.injEq] at ha
    obtain ⟨rfl, ha⟩ := ha
    have htook : ∀ d ∈ x.took ++ [x.p.dt], 0 ≤ d ∧ d ≤ p.dt + 1e-12 := fun d hd => by
      rcases List.mem_append.1 hd with hd | hd
      · exact e3 d hd
      · rw [List.mem_singleton.1 hd]; exact e2
    have h1 : ¬ |x.p.t + x.p.dt - x.p.T| < 1e-12 := fun h => by simp [h] at ha
    rcases e4 with ⟨f1, f2⟩ | f
    · have hlt : x.p.t + x.p.dt ≤ x.p.T - 1e-12 := by
        rw [not_lt, le_abs] at h1
        rcases h1 with h1 | h1
        · have h3 : x.p.t + x.p.dt = x.p.T + 1e-12 := le_antisymm hg (by linarith)
          have := hne (x.took.length + 1)
          rw [f1, f2, e1] at h3
          push_cast at this
          exact absurd (by linarith) this
        · linarith
      have hl : x.p.t + x.p.dt = p.t + ((x.took ++ [x.p.dt]).length : ℝ) * p.dt := by
        rw [f1, f2, List.length_append, List.length_singleton]; push_cast; ring
      by_cases h2 : |x.p.t + x.p.dt + x.p.dt - x.p.T| < 1e-12 ∨ x.p.t + x.p.dt + x.p.dt ≥ x.p.T + 1e-12
      · simp only [if_neg h1, if_pos h2]
        refine ⟨e1, ⟨by linarith, ?_⟩, htook, Or.inr (by rw [e1]; ring)⟩
        rcases h2 with h2 | h2
        · have := (abs_lt.1 h2).1; rw [f1] at this ⊢; linarith
        · rw [f1] at h2 ⊢; linarith
      · simp only [if_neg h1, if_neg h2]
        exact ⟨e1, e2, htook, Or.inl ⟨f1, hl⟩⟩
    · exact absurd (by rw [f, e1, sub_self, abs_zero]; exact h12) h1
  obtain ⟨y, hr, rfl | ⟨r, hg, hi, rfl⟩⟩ := hx
  · exact (key _ hr).2.2.1
  · obtain ⟨-, e2, e3, -⟩ := key _ hr
    obtain ⟨s', c', hi'⟩ := hfix y.p y.s y.c
    rw [hi'] at hi
    simp only [Option.some.injEq] at hi
    subst hi
    rw [(afterIntegrate_basic sv y _).2.2.2.2.2.2.1]
    intro d hd
    rcases List.mem_append.1 hd with hd | hd
    · exact e3 d hd
    · rw [List.mem_singleton.1 hd]; exact e2

/-- With `T` a whole number of steps away, all steps are equal. -/
theorem equal_steps (sv : Solver S C D) (hend : ∀ p s, sv.end_of_tstep p s = endPeriodic p s) (hfix : FixedStep sv) (hk : ∀ n, sv.killed n = false)
    (p : Params) (ht : p.t = 0) (hdt : 1e-12 < p.dt) (n : ℕ) (hT : p.T = n * p.dt) (s : S) (h5 : H5 D) {x : St S C D}
    (hx : Seen sv (start sv p s h5) x) : x.took = List.replicate x.took.length p.dt ∧ x.p.t = x.took.length * p.dt := by
  have h12 : (0 : ℝ) < 1e-12 := by norm_num
  have gap : ∀ k : ℕ, |(k : ℝ) * p.dt - n * p.dt| ≤ 1e-12 → k = n := fun k h => by
    rw [← sub_mul, abs_mul, abs_of_pos (h12.trans hdt)] at h
    have h1 : |(k : ℝ) - n| < 1 := by
      by_contra h2
      push Not at h2
      nlinarith
    have h2 : |(k : ℤ) - n| < 1 := by exact_mod_cast h1
    have := Int.abs_lt_one_iff.1 h2
    omega
  have hrep : ∀ l : List ℝ, l = List.replicate l.length p.dt → l ++ [p.dt] = List.replicate (l ++ [p.dt]).length p.dt := fun l hl => by
    rw [List.length_append, List.length_singleton, List.replicate_succ', ← hl]
  have key : ∀ x, Reach sv (start sv p s h5) x → x.p.T = p.T ∧ x.p.dt = p.dt ∧ x.took = List.replicate x.took.length p.dt ∧ x.p.t = x.took.length * p.dt :=
      fun x hr => by
    refine hr.inv (fun x => x.p.T = p.T ∧ x.p.dt = p.dt ∧ x.took = List.replicate x.took.length p.dt ∧ x.p.t = x.took.length * p.dt)
      ⟨rfl, rfl, rfl, by simp [start, ht]⟩ ?_
    rintro x r x' ⟨e1, e2, e3, e4⟩ hg hi ha
    obtain ⟨s', c', hi'⟩ := hfix x.p x.s x.c
    rw [hi'] at hi
    simp only [Option.some.injEq] at hi
    subst hi
    rw [afterIntegrate_alive sv x _ (hk _)] at ha
    simp only [hend, endPeriodic, outP, Prod.mk.injEq, Option.some.injEq] at ha
    obtain ⟨rfl, ha⟩ := ha
    have h1 : ¬ |x.p.t + x.p.dt - x.p.T| < 1e-12 := fun h => by simp [h] at ha
    have hl : x.p.t + x.p.dt = ((x.took.length + 1 : ℕ) : ℝ) * p.dt := by rw [e2, e4]; push_cast; ring
    have hlt : x.took.length + 1 < n := by
      rw [hl, e1, hT] at h1 hg
      by_contra h2
      push Not at h2
      have h3 : (n : ℝ) * p.dt ≤ ((x.took.length + 1 : ℕ) : ℝ) * p.dt := mul_le_mul_of_nonneg_right (by exact_mod_cast h2) (h12.trans hdt).le
      have := gap (x.took.length + 1) (by rw [abs_le]; constructor <;> linarith)
      rw [this, sub_self, abs_zero] at h1
      exact h1 h12
    have hle : ((x.took.length + 1 : ℕ) : ℝ) * p.dt + p.dt ≤ n * p.dt := by
      have : ((x.took.length + 2 : ℕ) : ℝ) * p.dt ≤ n * p.dt := mul_le_mul_of_nonneg_right (by exact_mod_cast hlt) (h12.trans hdt).le
      push_cast at this ⊢
      linarith
    have hlen : (x.took ++ [x.p.dt]).length = x.took.length + 1 := by simp
    have htook : x.took ++ [x.p.dt] = List.replicate (x.took ++ [x.p.dt]).length p.dt := by rw [e2]; exact hrep _ e3
    by_cases h2 : |x.p.t + x.p.dt + x.p.dt - x.p.T| < 1e-12 ∨ x.p.t + x.p.dt + x.p.dt ≥ x.p.T + 1e-12
    · simp only [if_neg h1, if_pos h2]
      refine ⟨e1, ?_, htook, by rw [hl, hlen]⟩
      rw [hl, e1, hT, e2] at h2
      rw [hl, e1, hT]
      have h4 : ((x.took.length + 1 : ℕ) : ℝ) * p.dt + p.dt = ((x.took.length + 2 : ℕ) : ℝ) * p.dt := by push_cast; ring
      rcases h2 with h2 | h2
      · rw [h4] at h2
        rw [← gap _ h2.le, ← h4]; ring
      · linarith
    · simp only [if_neg h1, if_neg h2]
      exact ⟨e1, e2, htook, by rw [hl, hlen]⟩
  obtain ⟨y, hr, rfl | ⟨r, hg, hi, rfl⟩⟩ := hx
  · exact (key _ hr).2.2
  · obtain ⟨-, e2, e3, e4⟩ := key _ hr
    obtain ⟨s', c', hi'⟩ := hfix y.p y.s y.c
    rw [hi'] at hi
    simp only [Option.some.injEq] at hi
    subst hi
    rw [(afterIntegrate_basic sv y _).2.2.2.2.2.2.1, (afterIntegrate_basic sv y _).1]
    dsimp only
    rw [e2]
    refine ⟨hrep _ e3, ?_⟩
    rw [e4, List.length_append, List.length_singleton]; push_cast; ring

/-- Every integrator without step-size control takes the step it is asked for. -/
theorem fixed_method {V : Type*} [AddCommGroup V] [Module ℝ V] (F : V → V → V) (est : V → V → V → PyF) (fuel : ℕ) (m : Method) (hm : m ≠ .BS5 true)
    (rhs : V) (upd : V → V) (levels : List (ℕ × (V → D))) (results : V → D) : FixedStep (methodSolver F est (fuel + 1) m rhs upd levels results) := by
  intro p s c
  cases m with
  | RK4 => exact ⟨_, _, rfl⟩
  | ForwardEuler => exact ⟨_, _, rfl⟩
  | AB2 => exact ⟨_, _, rfl⟩
  | BS5 a =>
    have : a = false := by simpa using hm
    subst this
    exact ⟨_, _, rfl⟩

/-- A fixed-step call of `solve` from time zero returns. -/
theorem periodic_returns (sv : Solver S C D) (hend : ∀ p s, sv.end_of_tstep p s = endPeriodic p s) (hfix : FixedStep sv) (hk : ∀ n, sv.killed n = false)
    (p : Params) (ht : p.t = 0) (hdt : 0 < p.dt) (hT : p.dt ≤ p.T) (s : S) (h5 : H5 D) (fuel : ℕ) (hf : ⌈p.T / p.dt⌉₊ + 2 ≤ fuel) :
    ∃ st, solve sv fuel p s h5 = .returned st ∧ |st.p.t - p.T| < 1e-12 ∧ st.took ≠ [] := by
  obtain ⟨x, k, l, h1, h2, -, h3, -⟩ := loop_periodic sv hend hfix hk p.dt ⌈p.T / p.dt⌉₊ fuel (start sv p s h5) (by omega) rfl
    (show p.t < p.T by linarith) (show p.t + p.dt ≤ p.T + 1e-12 by linarith) (by
      show p.T - p.t ≤ _
      have := (div_le_iff₀ hdt).1 (Nat.le_ceil (p.T / p.dt))
      linarith)
  obtain ⟨st, k1, k2, k3, -⟩ := solve_of_finished h1
  have hne : st.took ≠ [] := by
    rw [k3, h2]
    obtain ⟨k, rfl⟩ : ∃ j, k = j + 1 := ⟨k - 1, by omega⟩
    simp [List.replicate_succ]
  obtain ⟨e1, -, e2⟩ := C28_ends_at_T sv hend p s h5 fuel st k1 hne
  exact ⟨st, e2, e1, hne⟩

section accuracy
variable {E : Type*} [NormedAddCommGroup E] [NormedSpace ℝ E] {F : E → E → E} {f : E → E}

/-- **C101 (periodic solvers, fixed step).**  If the equations have a solution up to a time beyond `T`, a call of `solve` from time zero with a small enough step
returns at time `T` (to 1e-12), and the state it leaves and every state handed to the callbacks are within `C dtᵖ` of the solution at the time reported,
with `p` the order of the integrator.  The last condition on the step excludes a step that ends exactly at `T + 1e-12`, after which the code would go
back. -/
theorem C101_periodic (h : Periodic.Converges F f) (est : E → E → E → PyF) {T : ℝ} (hT : 0 ≤ T) {y : ℝ → E} (hy : SolvesOn f T y) (name : String) (q : ℕ)
    (hq : (name, q) ∈ [("ForwardEuler", 1), ("RK4", 4), ("BS5_fixed", 5)]) :
    ∃ m, Method.ofName name = some m ∧ ∃ C H0 : ℝ, 0 < H0 ∧ ∀ p : Params, p.t = 0 → p.tstep = 0 → 1e-12 ≤ p.dt → p.dt ≤ H0 → p.dt ≤ p.T →
      p.T + 1e-12 ≤ T → (∀ k : ℕ, k * p.dt ≠ p.T + 1e-12) →
      ∀ (retries : ℕ) (rhs : E) (levels : List (ℕ × (E → D))) (results : E → D) (h5 : H5 D) (fuel : ℕ), ⌈p.T / p.dt⌉₊ + 2 ≤ fuel →
      ∃ st, solve (methodSolver F est (retries + 1) m rhs id levels results) fuel p (y 0) h5 = .returned st ∧ |st.p.t - p.T| < 1e-12 ∧
        ‖st.s - y st.p.t‖ ≤ C * p.dt ^ q ∧ ∀ o ∈ st.outs, ‖o.2 - y o.1.t‖ ≤ C * p.dt ^ q := by
  obtain ⟨m, hm, C, H0, hH0, H⟩ := h.fixed est T hT y hy name q hq
  refine ⟨m, hm, C * 2 ^ q, H0 / 2, by linarith, fun p ht hts hdt1 hdt2 hT1 hT2 hne retries rhs levels results h5 fuel hf => ?_⟩
  have hdt : 0 < p.dt := lt_of_lt_of_le (by norm_num) hdt1
  have hm' : m ≠ .BS5 true := by
    simp only [List.mem_cons, Prod.mk.injEq, List.not_mem_nil, or_false] at hq
    rcases hq with ⟨rfl, -⟩ | ⟨rfl, -⟩ | ⟨rfl, -⟩ <;> simp only [Method.ofName, Option.some.injEq] at hm <;> subst hm <;> simp
  have hfix := fixed_method (D := D) F est retries m hm' rhs id levels results
  generalize hsv : methodSolver F est (retries + 1) m rhs id levels results = sv at hfix
  have hend : ∀ p s, sv.end_of_tstep p s = endPeriodic p s := fun _ _ => by rw [← hsv]; rfl
  have hk : ∀ n, sv.killed n = false := fun _ => by rw [← hsv]; rfl
  obtain ⟨st, e1, e2, e3⟩ := periodic_returns sv hend hfix hk p ht hdt hT1 (y 0) h5 fuel hf
  obtain ⟨x, k1, k2, k3, k4, k5, k6⟩ := reachesClose_finished (Or.inl e1)
  have hseen := loop_finished_seen k1
  have hst := fixed_steps sv hend hfix hk p hdt (fun k => by rw [ht, zero_add]; exact hne k) (y 0) h5 hseen
  subst hsv
  obtain ⟨ds, outs, a1, a2, a3, a4, a5, a6, a7, a8, a9⟩ := periodic_seen F est (retries + 1) m rhs levels results p (y 0) h5 hseen
  have hds := a9 hfix
  subst hds
  obtain ⟨outs', b1, b2, b3⟩ := H (2 * p.dt) (by linarith) (by linarith) x.took (fun d hd => ⟨(hst d hd).1, by linarith [(hst d hd).2]⟩) (by
    have := (abs_lt.1 e2).2
    rw [k2, a6, ht] at this
    linarith) retries rhs
  rw [hts, b1, Option.some.injEq] at a1
  subst a1
  have hw := within_timed x.outs outs' p.t a7 (by rw [ht]; exact b3)
  have hw' : ∀ o ∈ x.outs, ‖o.2 - y o.1.t‖ ≤ C * 2 ^ q * p.dt ^ q := fun o ho => by
    have := hw o ho
    rwa [mul_pow, ← mul_assoc] at this
  refine ⟨st, e1, e2, ?_, by rw [k4]; exact hw'⟩
  rcases a8 with ⟨a, -⟩ | ⟨o, ho, e, e'⟩
  · exact absurd (k3.trans a) e3
  · rw [k2, k6, ← e, ← e']; exact hw' o ho

/-- **C101 (periodic solvers, AB2).**  With AB2 and `T` a whole number of steps away, the error is of second order.  (AB2 assumes equal steps; a last step
of another length would use the wrong weights.) -/
theorem C101_ab2 (h : Periodic.Converges F f) (est : E → E → E → PyF) {T : ℝ} (hT : 0 ≤ T) {y : ℝ → E} (hy : SolvesOn f T y) :
    ∃ m, Method.ofName "AB2" = some m ∧ ∃ C H0 : ℝ, 0 < H0 ∧ ∀ p : Params, p.t = 0 → p.tstep = 0 → 1e-12 < p.dt → p.dt ≤ H0 →
      ∀ n : ℕ, 1 ≤ n → p.T = n * p.dt → p.T ≤ T →
      ∀ (retries : ℕ) (rhs : E) (levels : List (ℕ × (E → D))) (results : E → D) (h5 : H5 D) (fuel : ℕ), n + 2 ≤ fuel →
      ∃ st, solve (methodSolver F est (retries + 1) m rhs id levels results) fuel p (y 0) h5 = .returned st ∧ st.p.t = p.T ∧
        ‖st.s - y p.T‖ ≤ C * p.dt ^ 2 ∧ ∀ o ∈ st.outs, ‖o.2 - y o.1.t‖ ≤ C * p.dt ^ 2 := by
  obtain ⟨m, hm, C, H0, hH0, H⟩ := h.ab2 est T hT y hy
  refine ⟨m, hm, C, H0, hH0, fun p ht hts hdt1 hdt2 n hn hT1 hT2 retries rhs levels results h5 fuel hf => ?_⟩
  have hdt : 0 < p.dt := lt_trans (by norm_num) hdt1
  have hm' : m ≠ .BS5 true := by
    simp only [Method.ofName, Option.some.injEq] at hm
    subst hm
    simp
  have hle : p.dt ≤ p.T := by
    rw [hT1]
    have : (1 : ℝ) ≤ n := by exact_mod_cast hn
    nlinarith
  have hfix := fixed_method (D := D) F est retries m hm' rhs id levels results
  generalize hsv : methodSolver F est (retries + 1) m rhs id levels results = sv at hfix
  have hend : ∀ p s, sv.end_of_tstep p s = endPeriodic p s := fun _ _ => by rw [← hsv]; rfl
  have hk : ∀ n, sv.killed n = false := fun _ => by rw [← hsv]; rfl
  obtain ⟨st, e1, e2, e3⟩ := periodic_returns sv hend hfix hk p ht hdt hle (y 0) h5 fuel (by
    rw [hT1, mul_div_cancel_right₀ _ hdt.ne', Nat.ceil_natCast]; exact hf)
  obtain ⟨x, k1, k2, k3, k4, k5, k6⟩ := reachesClose_finished (Or.inl e1)
  have hseen := loop_finished_seen k1
  obtain ⟨q1, q2⟩ := equal_steps sv hend hfix hk p ht hdt1 n hT1 (y 0) h5 hseen
  have hlen : x.took.length = n := by
    have h1 : |(x.took.length : ℝ) * p.dt - n * p.dt| < 1e-12 := by
      rw [k2] at e2
      dsimp only at e2
      rwa [q2, hT1] at e2
    rw [← sub_mul, abs_mul, abs_of_pos hdt] at h1
    have h2 : |(x.took.length : ℝ) - n| < 1 := by
      by_contra h2
      push Not at h2
      nlinarith
    have h3 : |(x.took.length : ℤ) - n| < 1 := by exact_mod_cast h2
    have := Int.abs_lt_one_iff.1 h3
    omega
  rw [hlen] at q1 q2
  subst hsv
  obtain ⟨ds, outs, a1, a2, a3, a4, a5, a6, a7, a8, a9⟩ := periodic_seen F est (retries + 1) m rhs levels results p (y 0) h5 hseen
  have hds := a9 hfix
  subst hds
  obtain ⟨outs', b1, b2, b3⟩ := H p.dt hdt.le hdt2 n (by rw [← hT1]; exact hT2) (retries + 1) rhs
  rw [hts, q1, b1, Option.some.injEq] at a1
  subst a1
  have hw := within_timed x.outs outs' p.t a7 (by rw [ht]; exact b3)
  have hend' : x.p.t = p.T := by rw [q2, hT1]
  refine ⟨st, e1, by rw [k2]; exact hend', ?_, by rw [k4]; exact hw⟩
  rcases a8 with ⟨a, -⟩ | ⟨o, ho, e, e'⟩
  · exact absurd (k3.trans a) e3
  · have := hw o ho
    rw [e, e', hend'] at this
    rw [k6]; exact this

/-- **C101 (periodic solvers, BS5_adaptive).**  With step-size control the step sizes are chosen by the code.  If a call from time zero returns after at least
one step, it does so at time `T` (to 1e-12), and if no step it took is negative or larger than `H`, the state it leaves and every state handed to the callbacks
are within `C H⁵` of the solution at the time reported. -/
theorem C101_adaptive (h : Periodic.Converges F f) (est : E → E → E → PyF) (hest : ∀ a b c, (est a b c).Nonneg) {T : ℝ} (hT : 0 ≤ T) {y : ℝ → E}
    (hy : SolvesOn f T y) :
    ∃ m, Method.ofName "BS5_adaptive" = some m ∧ ∃ C H0 : ℝ, 0 < H0 ∧ ∀ p : Params, p.t = 0 → p.tstep = 0 → p.T + 1e-12 ≤ T →
      ∀ H, 0 ≤ H → H ≤ H0 → ∀ (retries : ℕ) (rhs : E) (levels : List (ℕ × (E → D))) (results : E → D) (h5 : H5 D) (fuel : ℕ) st,
      solve (methodSolver F est retries m rhs id levels results) fuel p (y 0) h5 = .returned st → st.took ≠ [] →
      (∀ d ∈ st.took, 0 ≤ d ∧ d ≤ H) →
      |st.p.t - p.T| < 1e-12 ∧ ‖st.s - y st.p.t‖ ≤ C * H ^ 5 ∧ ∀ o ∈ st.outs, ‖o.2 - y o.1.t‖ ≤ C * H ^ 5 := by
  obtain ⟨m, hm, C, H0, hH0, HH⟩ := h.adaptive est hest T hT y hy
  refine ⟨m, hm, C, H0, hH0, fun p ht hts hT1 H h1 h2 retries rhs levels results h5 fuel st hst hne hd => ?_⟩
  obtain ⟨e2, -, -⟩ := C28_ends_at_T _ (fun _ _ => rfl) p (y 0) h5 fuel st (Or.inl hst) hne
  obtain ⟨x, k1, k2, k3, k4, k5, k6⟩ := reachesClose_finished (Or.inl hst)
  obtain ⟨ds, outs, a1, a2, a3, a4, a5, a6, a7, a8, -⟩ := periodic_seen F est retries m rhs levels results p (y 0) h5 (loop_finished_seen k1)
  rw [k3] at hd hne
  have hw := within_timed x.outs outs p.t a7 (by
    rw [ht]
    refine HH H h1 h2 ds retries rhs outs (hts ▸ a1) (fun o ho => hd _ ?_) ?_
    · rw [a5]; exact List.mem_map_of_mem (f := fun o : E × ℝ × ℝ => o.2.2) ho
    · have := (abs_lt.1 e2).2
      rw [k2, a6, ht, a5] at this
      linarith)
  refine ⟨e2, ?_, by rw [k4]; exact hw⟩
  rcases a8 with ⟨a, -⟩ | ⟨o, ho, e, e'⟩
  · exact absurd a hne
  · rw [k2, k6, ← e, ← e']; exact hw o ho

open Periodic Dealias in
/-- **C101, put together** for NS with the 3/2-rule and RK4: for every mesh, box, viscosity, admissible source and start there is one flow for all times, and
a call of `solve` follows it up to any time `T` with an error of fourth order. -/
theorem C101_ns_rk4 (N : Fin 3 → ℕ) (hN : ∀ i, 0 < N i) (L : Fin 3 → ℝ) (nu : ℝ) (hnu : 0 ≤ nu) (Source : SArr 3 (RModes N))
    (hs : Solenoidal (scaledWaves N L) Source) (hsm : ∀ i, Unmasked N (Source i)) (s : Scratch 3 (RModes N) (Grid fun i => padded (N i)))
    (name : String) (conv) (hname : getConvection name = some conv) (u0 : SArr 3 (RModes N)) (h0 : Solenoidal (scaledWaves N L) u0)
    (hm : ∀ i, Unmasked N (u0 i)) (est : SArr 3 (RModes N) → SArr 3 (RModes N) → SArr 3 (RModes N) → PyF) :
    let F := rhsNS (padCtx N L nu Source) fun r u => conv s r u (padCtx N L nu Source).Tp (padCtx N L nu Source).K
    ∃ U : ℝ → SArr 3 (RModes N), U 0 = u0 ∧ Solves (F 0) U ∧ ∀ T, 0 ≤ T → ∃ m, Method.ofName "RK4" = some m ∧ ∃ C H0 : ℝ, 0 < H0 ∧
      ∀ p : Params, p.t = 0 → p.tstep = 0 → 1e-12 ≤ p.dt → p.dt ≤ H0 → p.dt ≤ p.T → p.T ≤ T → (∀ k : ℕ, k * p.dt ≠ p.T + 1e-12) →
      ∀ (retries : ℕ) (rhs : SArr 3 (RModes N)) (levels : List (ℕ × (SArr 3 (RModes N) → D))) (results : SArr 3 (RModes N) → D) (h5 : H5 D) (fuel : ℕ),
      ⌈p.T / p.dt⌉₊ + 2 ≤ fuel →
      ∃ st, solve (methodSolver F est (retries + 1) m rhs id levels results) fuel p u0 h5 = .returned st ∧ |st.p.t - p.T| < 1e-12 ∧
        ‖st.s - U st.p.t‖ ≤ C * p.dt ^ 4 ∧ ∀ o ∈ st.outs, ‖o.2 - U o.1.t‖ ≤ C * p.dt ^ 4 := by
  intro F
  obtain ⟨U, hU0, hU, -, -, -⟩ := C92_ns_padded N hN L nu hnu Source hs hsm s name conv hname 0 u0 h0 hm
  refine ⟨U, hU0, hU, fun T hT => ?_⟩
  obtain ⟨m, h1, C, H0, h2, h3⟩ := C101_periodic (D := D) (C93_periodic.1 (padCtx N L nu Source) (rspace_linear N _) s name conv hname 0) est
    (T := T + 1e-12) (by linarith) (hU.on _) "RK4" 4 (by simp)
  refine ⟨m, h1, C, H0, h2, fun p a1 a2 a3 a4 a5 a6 a7 retries rhs levels results h5 fuel hf => ?_⟩
  have := h3 p a1 a2 a3 a4 a5 (by linarith) a7 retries rhs levels results h5 fuel hf
  rwa [hU0] at this

/-- Parameters that meet the hypotheses on the step: `dt = 1/100`, `T = 1`. -/
example : ∃ p : Params, p.t = 0 ∧ p.tstep = 0 ∧ 1e-12 ≤ p.dt ∧ p.dt ≤ p.T ∧ ∀ k : ℕ, k * p.dt ≠ p.T + 1e-12 := by
  refine ⟨{ t := 0, dt := 1 / 100, T := 1, tstep := 0, write_result := 1, checkpoint := 1, truncate := false }, rfl, rfl, ?_, ?_, fun k => ?_⟩
  · norm_num
  · norm_num
  · intro h
    have h1 : (k : ℝ) * 10 ^ 10 = 10 ^ 12 + 1 := by
      have : (k : ℝ) * (1 / 100) = 1 + 1e-12 := h
      linarith
    have h2 : k * 10 ^ 10 = 10 ^ 12 + 1 := by exact_mod_cast h1
    omega

end accuracy

end SpectralDNS.Solve

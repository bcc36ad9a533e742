import Mathlib.Analysis.SpecialFunctions.Pow.Real
import Mathlib.Algebra.BigOperators.Fin
import Mathlib.Algebra.Module.Defs
import Verif.Model.PyFloat

/-!
# Textbook time integrators (specification)

Independent of `Model/Integrators.lean`; only the float type `PyF` is shared.
-/

namespace SpectralDNS.Spec

variable {V : Type*} [AddCommGroup V] [Module ℝ V]

/-- Classical Runge-Kutta method of order four for the autonomous equation `u' = f u`. -/
noncomputable def rk4 (f : V → V) (dt : ℝ) (u : V) : V :=
  let k1 := f u
  let k2 := f (u + (dt / 2) • k1)
  let k3 := f (u + (dt / 2) • k2)
  let k4 := f (u + dt • k3)
  u + (dt / 6) • (k1 + (2 : ℝ) • k2 + (2 : ℝ) • k3 + k4)

/-- Explicit Euler. -/
noncomputable def euler (f : V → V) (dt : ℝ) (u : V) : V := u + dt • f u

/-- Two-step Adams-Bashforth sequence started with one Euler step; `dt n` is the size of step `n`. -/
noncomputable def ab2 (f : V → V) (dt : ℕ → ℝ) (u : V) : ℕ → V
  | 0 => u
  | 1 => u + dt 0 • f u
  | n + 2 => ab2 f dt u (n + 1) + (3 / 2 : ℝ) • dt (n + 1) • f (ab2 f dt u (n + 1))
      - (1 / 2 : ℝ) • dt n • f (ab2 f dt u n)

/-- Stage derivatives `k_i = f (u + dt Σ_{j<i} a_ij k_j)` of an explicit Runge-Kutta method. -/
noncomputable def stages (a : ℕ → ℕ → ℝ) (f : V → V) (dt : ℝ) (u : V) (i : ℕ) : V :=
  f (u + ∑ j : Fin i, (dt * a i j) • stages a f dt u j)
termination_by i
decreasing_by exact j.2

/-- Solution of one explicit Runge-Kutta step with weights `b`. -/
noncomputable def rkNew (s : ℕ) (a : ℕ → ℕ → ℝ) (b : ℕ → ℝ) (f : V → V) (dt : ℝ) (u : V) : V :=
  u + ∑ j ∈ Finset.range s, (dt * b j) • stages a f dt u j

/-- Difference between the solutions of the two embedded methods. -/
noncomputable def rkErr (s : ℕ) (a : ℕ → ℕ → ℝ) (b bhat : ℕ → ℝ) (f : V → V) (dt : ℝ) (u : V) : V :=
  rkNew s a b f dt u - rkNew s a bhat f dt u

open Classical in
/-- Textbook controller (Hairer, Nørsett, Wanner I, p. 167): `0.8 est^(-1/(p+1))` clamped to `[0.01, facmax]`;
growth by `facmax` when the error vanishes, smallest factor for an infinite or undefined error. -/
noncomputable def factor (facmax : ℝ) (p : ℕ) : PyF → ℝ
  | .fin x => if x = 0 then facmax else min facmax (max (1 / 100) (4 / 5 * x ^ (-(1 / ((p : ℝ) + 1)))))
  | .inf => 1 / 100
  | .nan => 1 / 100

/-- Textbook embedded Runge-Kutta step with step-size control which recomputes every stage from scratch.
`Adapt … facmax dt u rej (u', dt', took, e)`: starting with trial size `dt` the trials of sizes `rej` are rejected, then the trial
of size `took` with estimate `e` is accepted, giving `u'` and the proposal `dt'` for the next step. -/
inductive Adapt (s : ℕ) (a : ℕ → ℕ → ℝ) (b bhat : ℕ → ℝ) (f : V → V) (p : ℕ) (est : V → V → V → PyF) :
    ℝ → ℝ → V → List ℝ → V × ℝ × ℝ × PyF → Prop
  | accept (facmax dt u) (e : PyF) (he : e = est (rkErr s a b bhat f dt u) u (rkNew s a b f dt u))
      (h : ∀ x, e = .fin x → x ≤ 1) (h' : e ≠ .inf) :
      Adapt s a b bhat f p est facmax dt u [] (rkNew s a b f dt u, dt * factor facmax p e, dt, e)
  | reject (facmax dt u) (e : PyF) (rej r) (he : e = est (rkErr s a b bhat f dt u) u (rkNew s a b f dt u))
      (h : e = .inf ∨ ∃ x, e = .fin x ∧ 1 < x)
      (next : Adapt s a b bhat f p est 1 (dt * factor facmax p e) u rej r) :
      Adapt s a b bhat f p est facmax dt u (dt :: rej) r

/-- A run of textbook adaptive steps: requested sizes, initial state, and after each step the state, the proposed next size
and the size taken. -/
inductive AdaptRun (s : ℕ) (a : ℕ → ℕ → ℝ) (b bhat : ℕ → ℝ) (f : V → V) (p : ℕ) (est : V → V → V → PyF) :
    List ℝ → V → List (V × ℝ × ℝ) → Prop
  | nil (u) : AdaptRun s a b bhat f p est [] u []
  | cons (dt ds u rej u' dt' took e outs) (step : Adapt s a b bhat f p est 2 dt u rej (u', dt', took, e))
      (rest : AdaptRun s a b bhat f p est ds u' outs) : AdaptRun s a b bhat f p est (dt :: ds) u ((u', dt', took) :: outs)

/-- A run of textbook Runge-Kutta steps of prescribed sizes. -/
noncomputable def fixedRun (s : ℕ) (a : ℕ → ℕ → ℝ) (b : ℕ → ℝ) (f : V → V) : List ℝ → V → List (V × ℝ × ℝ)
  | [], _ => []
  | dt :: ds, u => (rkNew s a b f dt u, dt, dt) :: fixedRun s a b f ds (rkNew s a b f dt u)

/-- Stage derivatives when the first one is replaced by a given vector `k`. -/
noncomputable def stagesFrom (a : ℕ → ℕ → ℝ) (f : V → V) (dt : ℝ) (u k : V) (i : ℕ) : V :=
  if i = 0 then k else f (u + ∑ j : Fin i, (dt * a i j) • stagesFrom a f dt u k j)
termination_by i
decreasing_by exact j.2

/-- Runge-Kutta step whose first stage derivative is replaced by `k`. -/
noncomputable def rkNewFrom (s : ℕ) (a : ℕ → ℕ → ℝ) (b : ℕ → ℝ) (f : V → V) (dt : ℝ) (u k : V) : V :=
  u + ∑ j ∈ Finset.range s, (dt * b j) • stagesFrom a f dt u k j

end SpectralDNS.Spec

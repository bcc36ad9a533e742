import Verif.Lemmas.Integrators
import Mathlib.Algebra.Module.LinearMap.End
import Mathlib.Tactic.Module
import Mathlib.Tactic.NoncommRing

/-!
# C17–C20: RK4, ForwardEuler and AB2
-/

namespace SpectralDNS

variable {V : Type*} [AddCommGroup V] [Module ℝ V]

/-! ## C17 -/

/-- C17.  One call of `integrate()` for "RK4": classical RK4 step for every right-hand side `f` and any content of the
work arrays; both returned step sizes are `dt`; the loop never blocks. -/
theorem C17_rk4_classical (F : V → V → V) (f : V → V) (hF : ∀ r u, F r u = f u) (est : V → V → V → PyF) (fuel : ℕ)
    (m : Method) (hm : Method.ofName "RK4" = some m) (dt : ℝ) (tstep : ℕ) (c : Closure V) :
    ∃ c', integrate F est fuel m dt tstep c = some (c', dt, dt) ∧ c'.u0 = Spec.rk4 f dt c.u0 := by
  obtain rfl : Method.RK4 = m := by simpa [Method.ofName] using hm
  refine ⟨_, rfl, ?_⟩
  simp only [RK4, List.range_succ, List.range_zero, List.nil_append, List.cons_append, List.foldl_cons,
    List.foldl_nil, rk4Stage, hF, Spec.rk4, rk4a, rk4b, Nat.lt_irrefl, if_false, if_true, Nat.zero_lt_succ,
    Nat.one_lt_succ_succ, Nat.lt_succ_self]
  norm_num
  rw [show 1 / 2 * dt = dt / 2 by ring]
  module

/-- Concrete case: `u' = u²` on the reals with dirty work arrays. -/
example : ∃ c', integrate (fun _ u : ℝ => u ^ 2) (fun _ _ _ => .nan) 0 .RK4 1 7 ⟨1, 5, -3, 8, fun _ => 2, 4⟩ =
    some (c', 1, 1) ∧ c'.u0 = Spec.rk4 (fun u : ℝ => u ^ 2) 1 1 :=
  C17_rk4_classical (V := ℝ) _ (fun u => u ^ 2) (fun _ _ => rfl) _ 0 .RK4 rfl 1 7 ⟨1, 5, -3, 8, fun _ => 2, 4⟩

/-- The specification is not degenerate: for `u' = u`, `dt = 1`, `u = 1` it gives `65/24`. -/
example : Spec.rk4 (fun u : ℝ => u) 1 1 = 65 / 24 := by norm_num [Spec.rk4]

/-! ## C18 -/

theorem iterate_run (F : V → V → V) (est : V → V → V → PyF) (fuel : ℕ) (m : Method) (dt : ℝ) (g : V → V)
    (h : ∀ tstep c, ∃ c', integrate F est fuel m dt tstep c = some (c', dt, dt) ∧ c'.u0 = g c.u0) (n : ℕ) :
    ∀ tstep c, ∃ c', runSteps F est fuel m tstep (List.replicate n dt) c = some c' ∧ c'.u0 = g^[n] c.u0 := by
  induction n with
  | zero => intro tstep c; exact ⟨c, rfl, rfl⟩
  | succ n ih =>
    intro tstep c
    obtain ⟨c1, h1, e1⟩ := h tstep c
    obtain ⟨c2, h2, e2⟩ := ih (tstep + 1) c1
    refine ⟨c2, ?_, ?_⟩
    · simp only [List.replicate_succ, runSteps, h1, h2]
    · rw [e2, e1, Function.iterate_succ_apply]

/-- C18.  `n` RK4 steps for a linear right-hand side `L` multiply the state by the `n`-th power of the degree four
Taylor polynomial of `exp (dt L)`. -/
theorem C18_rk4_linear (F : V → V → V) (L : Module.End ℝ V) (hF : ∀ r u, F r u = L u) (est : V → V → V → PyF)
    (fuel n tstep : ℕ) (dt : ℝ) (c : Closure V) :
    ∃ c', runSteps F est fuel .RK4 tstep (List.replicate n dt) c = some c' ∧
      c'.u0 = ((1 + dt • L + (1 / 2 : ℝ) • (dt • L) ^ 2 + (1 / 6 : ℝ) • (dt • L) ^ 3 +
        (1 / 24 : ℝ) • (dt • L) ^ 4) ^ n : Module.End ℝ V) c.u0 := by
  have key := iterate_run F est fuel .RK4 dt
    (fun u => (1 + dt • L + (1 / 2 : ℝ) • (dt • L) ^ 2 + (1 / 6 : ℝ) • (dt • L) ^ 3 +
        (1 / 24 : ℝ) • (dt • L) ^ 4 : Module.End ℝ V) u) (fun t c => by
      obtain ⟨c', h, e⟩ := C17_rk4_classical F (fun u => L u) hF est fuel .RK4 rfl dt t c
      refine ⟨c', h, e.trans ?_⟩
      simp only [Spec.rk4, pow_succ, pow_zero, one_mul, LinearMap.add_apply, LinearMap.smul_apply,
        Module.End.mul_apply, Module.End.one_apply, map_add, map_smul]
      module) n tstep c
  obtain ⟨c', h, e⟩ := key
  exact ⟨c', h, by rw [e, Module.End.pow_apply]⟩

/-- C18.  `n` ForwardEuler steps for a linear right-hand side. -/
theorem C18_euler_linear (F : V → V → V) (L : Module.End ℝ V) (hF : ∀ r u, F r u = L u) (est : V → V → V → PyF)
    (fuel n tstep : ℕ) (dt : ℝ) (c : Closure V) :
    ∃ c', runSteps F est fuel .ForwardEuler tstep (List.replicate n dt) c = some c' ∧
      c'.u0 = ((1 + dt • L) ^ n : Module.End ℝ V) c.u0 := by
  have key := iterate_run F est fuel .ForwardEuler dt (fun u => (1 + dt • L : Module.End ℝ V) u) (fun t c => by
      refine ⟨_, rfl, ?_⟩
      simp [ForwardEuler, hF]) n tstep c
  obtain ⟨c', h, e⟩ := key
  exact ⟨c', h, by rw [e, Module.End.pow_apply]⟩

/-- C18.  Diffusion: a complex mode with decay rate `lam = nu |k|^2` and `lam dt ≤ 2.78` is never amplified by RK4,
whatever the number of steps. -/
theorem C18_rk4_diffusion (F : ℂ → ℂ → ℂ) (lam : ℝ) (hF : ∀ r u, F r u = (-lam : ℝ) • u)
    (est : ℂ → ℂ → ℂ → PyF) (fuel n tstep : ℕ) (dt : ℝ) (h0 : 0 ≤ lam * dt) (h1 : lam * dt ≤ 2.78) (c : Closure ℂ) :
    ∃ c', runSteps F est fuel .RK4 tstep (List.replicate n dt) c = some c' ∧ ‖c'.u0‖ ≤ ‖c.u0‖ := by
  obtain ⟨c', h, e⟩ := C18_rk4_linear F ((-lam : ℝ) • (1 : Module.End ℝ ℂ)) (by simpa using hF) est fuel n tstep dt c
  refine ⟨c', h, ?_⟩
  set z : ℝ := -(lam * dt) with hz
  have hop : ((1 + dt • ((-lam : ℝ) • (1 : Module.End ℝ ℂ)) + (1 / 2 : ℝ) • (dt • ((-lam : ℝ) • 1)) ^ 2 +
      (1 / 6 : ℝ) • (dt • ((-lam : ℝ) • 1)) ^ 3 + (1 / 24 : ℝ) • (dt • ((-lam : ℝ) • 1)) ^ 4) : Module.End ℝ ℂ) =
      (1 + z + z ^ 2 / 2 + z ^ 3 / 6 + z ^ 4 / 24 : ℝ) • (1 : Module.End ℝ ℂ) := by
    simp only [smul_smul, smul_pow, one_pow, hz]
    module
  rw [hop, smul_pow, one_pow] at e
  rw [e, LinearMap.smul_apply, Module.End.one_apply, norm_smul]
  have hb : |1 + z + z ^ 2 / 2 + z ^ 3 / 6 + z ^ 4 / 24| ≤ 1 := by
    have hz0 : z ≤ 0 := by linarith
    have hz1 : -2.78 ≤ z := by linarith
    norm_num at hz1
    rw [abs_le]
    constructor
    · nlinarith [sq_nonneg (z ^ 2 + 2 * z), sq_nonneg (z + 1)]
    · have : 0 ≤ 1 + z / 2 + z ^ 2 / 6 + z ^ 3 / 24 := by
        have h : 0 ≤ (z + 139 / 50) * ((z + 61 / 100) ^ 2 + 4) := by
          apply mul_nonneg <;> nlinarith [sq_nonneg (z + 61 / 100)]
        nlinarith
      nlinarith
  calc ‖(1 + z + z ^ 2 / 2 + z ^ 3 / 6 + z ^ 4 / 24) ^ n‖ * ‖c.u0‖ ≤ 1 * ‖c.u0‖ := by
        apply mul_le_mul_of_nonneg_right _ (norm_nonneg _)
        rw [norm_pow, Real.norm_eq_abs]
        exact pow_le_one₀ (abs_nonneg _) hb
    _ = ‖c.u0‖ := one_mul _

/-- C18.  Diffusion with ForwardEuler: stable for `lam dt ≤ 2`. -/
theorem C18_euler_diffusion (F : ℂ → ℂ → ℂ) (lam : ℝ) (hF : ∀ r u, F r u = (-lam : ℝ) • u)
    (est : ℂ → ℂ → ℂ → PyF) (fuel n tstep : ℕ) (dt : ℝ) (h0 : 0 ≤ lam * dt) (h1 : lam * dt ≤ 2) (c : Closure ℂ) :
    ∃ c', runSteps F est fuel .ForwardEuler tstep (List.replicate n dt) c = some c' ∧ ‖c'.u0‖ ≤ ‖c.u0‖ := by
  obtain ⟨c', h, e⟩ := C18_euler_linear F ((-lam : ℝ) • (1 : Module.End ℝ ℂ)) (by simpa using hF) est fuel n tstep dt c
  refine ⟨c', h, ?_⟩
  have hop : (1 + dt • ((-lam : ℝ) • (1 : Module.End ℝ ℂ)) : Module.End ℝ ℂ) =
      (1 - lam * dt : ℝ) • (1 : Module.End ℝ ℂ) := by
    simp only [smul_smul]
    module
  rw [hop, smul_pow, one_pow] at e
  rw [e, LinearMap.smul_apply, Module.End.one_apply, norm_smul]
  calc ‖(1 - lam * dt) ^ n‖ * ‖c.u0‖ ≤ 1 * ‖c.u0‖ := by
        apply mul_le_mul_of_nonneg_right _ (norm_nonneg _)
        rw [norm_pow, Real.norm_eq_abs]
        exact pow_le_one₀ (abs_nonneg _) (abs_le.2 ⟨by linarith, by linarith⟩)
    _ = ‖c.u0‖ := one_mul _

/-- The hypotheses are met by decay rate 1, dt = 5/2 and the initial value `1 + i`. -/
example : ∃ c', runSteps (fun _ u : ℂ => (-1 : ℝ) • u) (fun _ _ _ => .nan) 0 .RK4 3 (List.replicate 100 (5 / 2))
    (getintegrator 0 (1 + Complex.I)) = some c' ∧ ‖c'.u0‖ ≤ ‖(1 + Complex.I : ℂ)‖ :=
  C18_rk4_diffusion _ 1 (fun _ _ => rfl) _ 0 100 3 (5 / 2) (by norm_num) (by norm_num) _

/-! ## C19 -/

/-- C19.  AB2 entered with `tstep = 0`: after any list of steps the state is the Adams-Bashforth sequence started with
one Euler step, the step sizes being the requested ones. -/
theorem C19_ab2_fresh (F : V → V → V) (f : V → V) (hF : ∀ r u, F r u = f u) (est : V → V → V → PyF) (fuel : ℕ)
    (ds : List ℝ) (rhs u : V) :
    ∃ c', runSteps F est fuel .AB2 0 ds (getintegrator rhs u) = some c' ∧
      c'.u0 = Spec.ab2 f (fun n => ds.getD n 0) u ds.length := by
  -- generalised statement: from step `n` on
  have key : ∀ (rest : List ℝ) (n : ℕ) (c : Closure V) (dt : ℕ → ℝ), (∀ j, rest.getD j 0 = dt (n + j)) →
      c.u0 = Spec.ab2 f dt u n → (n = 0 ∨ c.u1 = dt (n - 1) • f (Spec.ab2 f dt u (n - 1))) →
      ∃ c', runSteps F est fuel .AB2 n rest c = some c' ∧ c'.u0 = Spec.ab2 f dt u (n + rest.length) := by
    intro rest
    induction rest with
    | nil => intro n c dt _ h0 _; exact ⟨c, rfl, h0⟩
    | cons d rest ih =>
      intro n c dt hd h0 h1
      have hdn : d = dt n := by simpa using hd 0
      obtain ⟨c', hc', e'⟩ := ih (n + 1) _ dt (fun j => by
          have := hd (j + 1)
          simp only [List.getD_cons_succ] at this
          rw [this]; congr 1; omega)
        (show ((integrate F est fuel .AB2 d n c).get rfl).1.u0 = Spec.ab2 f dt u (n + 1) by
          simp only [integrate, AB2, Option.get_some, hF]
          cases n with
          | zero => simp only [if_true, Spec.ab2, h0, hdn]
          | succ n =>
            simp only [Nat.succ_ne_zero, if_false, Spec.ab2]
            rw [h1.resolve_left (Nat.succ_ne_zero n), h0, hdn]
            simp only [Nat.add_sub_cancel]
            norm_num
            module)
        (Or.inr (by simp only [integrate, AB2, Option.get_some, hF, h0, hdn, Nat.add_sub_cancel]))
      refine ⟨c', ?_, ?_⟩
      · simpa only [runSteps, integrate, Option.get_some] using hc'
      · rw [e', List.length_cons]; congr 1; omega
  simpa using key ds 0 (getintegrator rhs u) (fun n => ds.getD n 0) (fun j => by simp) rfl (Or.inl rfl)

/-- Concrete case: three steps of different sizes for `u' = u` from 1. -/
example : Spec.ab2 (fun u : ℝ => u) (fun n => [1, 2, 1].getD n 0) 1 3 = 2 + 3/2*2*2 - 1/2 + 3/2*1*(2 + 3/2*2*2 - 1/2) - 1/2*2*2 := by
  norm_num [Spec.ab2]

/-! ## C20 -/

/-- C19, by name: `AB2` runs the Adams-Bashforth sequence and `ForwardEuler` makes Euler steps with the given `dt`. -/
theorem C19_named (F : V → V → V) (f : V → V) (hF : ∀ r u, F r u = f u) (est : V → V → V → PyF) (fuel : ℕ) :
    (∃ m, Method.ofName "AB2" = some m ∧ ∀ (ds : List ℝ) (rhs u : V), ∃ c', runSteps F est fuel m 0 ds (getintegrator rhs u) = some c' ∧
      c'.u0 = Spec.ab2 f (fun n => ds.getD n 0) u ds.length) ∧
    ∃ m, Method.ofName "ForwardEuler" = some m ∧ ∀ (dt : ℝ) (tstep : ℕ) (c : Closure V),
      ∃ c', integrate F est fuel m dt tstep c = some (c', dt, dt) ∧ c'.u0 = c.u0 + dt • f c.u0 :=
  ⟨⟨_, rfl, fun ds rhs u => C19_ab2_fresh F f hF est fuel ds rhs u⟩, ⟨_, rfl, fun dt tstep c => ⟨_, rfl, by simp [ForwardEuler, hF]⟩⟩⟩

/-- An uninterrupted AB2 run of `ds₁ ++ ds₂`, versus a run of `ds₁` followed by a new `solve` for `ds₂`
(`__init__.py:87` calls `getintegrator` again; `tstep` continues). -/
noncomputable def twoSolves (F : V → V → V) (est : V → V → V → PyF) (fuel : ℕ) (m : Method) (tstep : ℕ)
    (ds₁ ds₂ : List ℝ) (rhs u : V) : Option (Closure V) :=
  (runSteps F est fuel m tstep ds₁ (getintegrator rhs u)).bind fun c =>
    runSteps F est fuel m (tstep + ds₁.length) ds₂ (getintegrator c.rhs c.u0)

/-- C20 is false: with a vanishing right-hand side (a constant solution!) the second solve halves the state in its
first step. -/
theorem C20_second_solve_false :
    ¬ ∀ (F : ℝ → ℝ → ℝ) (f : ℝ → ℝ), (∀ r u, F r u = f u) → ∀ (est : ℝ → ℝ → ℝ → PyF) (fuel : ℕ) (ds₁ ds₂ : List ℝ) (u : ℝ),
      (twoSolves F est fuel .AB2 0 ds₁ ds₂ 0 u).map (·.u0) =
        (runSteps F est fuel .AB2 0 (ds₁ ++ ds₂) (getintegrator 0 u)).map (·.u0) := by
  intro h
  have := h (fun _ _ => 0) (fun _ => 0) (fun _ _ => rfl) (fun _ _ _ => .nan) 0 [1] [1] 1
  norm_num [twoSolves, runSteps, integrate, AB2, getintegrator] at this

/-- C20, exact behaviour: the first step after re-entering `solve` with `tstep ≠ 0` uses the state itself in place of
`dt_prev f(u_prev)`. -/
theorem C20_restart_step (F : V → V → V) (f : V → V) (hF : ∀ r u, F r u = f u) (est : V → V → V → PyF) (fuel : ℕ)
    (tstep : ℕ) (ht : tstep ≠ 0) (dt : ℝ) (rhs u : V) :
    (integrate F est fuel .AB2 dt tstep (getintegrator rhs u)).map (fun r => r.1.u0) =
      some ((1 / 2 : ℝ) • u + (3 / 2 : ℝ) • dt • f u) := by
  simp only [integrate, AB2, getintegrator, hF, if_neg ht, Option.map_some, Option.some.injEq]
  norm_num
  module

/-- C20, the part that holds (missing: re-entry with `tstep ≠ 0`): for any split of a run, re-entering `solve` agrees with the uninterrupted run
exactly when the last history term `dt_prev f(u_prev)` equals the current state, for every non-empty continuation
up to its first step; in particular a second solve entered with `tstep` reset to 0 is a fresh AB2 run. -/
theorem C20_restart_iff_partial (F : V → V → V) (f : V → V) (hF : ∀ r u, F r u = f u) (est : V → V → V → PyF) (fuel : ℕ)
    (tstep : ℕ) (ht : tstep ≠ 0) (dt : ℝ) (c : Closure V) :
    (integrate F est fuel .AB2 dt tstep (getintegrator c.rhs c.u0)).map (fun r => r.1.u0) =
      (integrate F est fuel .AB2 dt tstep c).map (fun r => r.1.u0) ↔ c.u1 = c.u0 := by
  simp only [integrate, AB2, getintegrator, hF, if_neg ht, Option.map_some, Option.some.injEq]
  constructor
  · intro h
    have h1 : (0.5 : ℝ) • c.u1 = (0.5 : ℝ) • c.u0 := by
      have := add_left_cancel h
      exact (sub_right_inj.1 this).symm
    have h2 : (2 : ℝ) • (0.5 : ℝ) • c.u1 = (2 : ℝ) • (0.5 : ℝ) • c.u0 := by rw [h1]
    simpa [smul_smul, show (2 : ℝ) * 0.5 = 1 by norm_num] using h2
  · intro h
    rw [h]

/-- Both sides of the equivalence occur: history equal to the state, and different from it. -/
example : ((getintegrator 0 1 : Closure ℝ).u1 = (getintegrator 0 1 : Closure ℝ).u0) ∧
    ¬ ((⟨1, 2, 0, 0, fun _ => 0, 0⟩ : Closure ℝ).u1 = (⟨1, 2, 0, 0, fun _ => 0, 0⟩ : Closure ℝ).u0) := by
  simp [getintegrator]

end SpectralDNS

import Verif.Lemmas.Optimization

/-! # C44, C45: the `optimizer` decorator and the compiled integrators -/

namespace SpectralDNS.Opt

/-- The naming rule of the docstring (optimization/__init__.py:15-21): the name itself, `_2D` for two dimensions, or the solver name as
postfix. -/
def Documented (ndim : ℕ) (solver name variant : String) : Prop :=
  (ndim ≠ 2 ∧ variant = name) ∨ (ndim = 2 ∧ variant = name ++ "_2D") ∨ variant = name ++ "_" ++ solver

/-- **C44** A decorated function calls the numpy original or an existing compiled variant with a documented name; and the original
exactly when there is no such variant. -/
theorem C44_callable (mods : String → Option (String → Bool)) (optimization precision solver name : String) (ndim : ℕ) :
    (optimizer mods configMesh optimization precision solver ndim name = .numpy ∧
      ∀ f, mods (optimization ++ "_" ++ precision) = some f → ∀ v, Documented ndim solver name v → f v = false) ∨
    ∃ f v, mods (optimization ++ "_" ++ precision) = some f ∧ f v = true ∧ Documented ndim solver name v ∧
      optimizer mods configMesh optimization precision solver ndim name = .compiled (optimization ++ "_" ++ precision) v := by
  unfold optimizer configMesh
  rcases h : mods (optimization ++ "_" ++ precision) with _ | f
  · exact Or.inl ⟨by simp [h], by simp⟩
  · by_cases hg : f (if ndim = 2 then name ++ "_2D" else name) = true
    · refine Or.inr ⟨f, _, rfl, hg, ?_, by simp [h, hg]⟩
      by_cases h2 : ndim = 2
      · exact Or.inr (Or.inl ⟨h2, by rw [if_pos h2]⟩)
      · exact Or.inl ⟨h2, by rw [if_neg h2]⟩
    · by_cases hs : f (name ++ "_" ++ solver) = true
      · exact Or.inr ⟨f, _, rfl, hs, Or.inr (Or.inr rfl), by simp [h, hg, hs]⟩
      · refine Or.inl ⟨by simp [h, hg, hs], ?_⟩
        rintro _ ⟨⟩ v (⟨h2, rfl⟩ | ⟨h2, rfl⟩ | rfl)
        · rw [if_neg h2] at hg; simpa using hg
        · rw [if_pos h2] at hg; simpa using hg
        · simpa using hs

/-- **C44** In particular nothing is ever called that is `None`. -/
theorem C44_never_none (mods : String → Option (String → Bool)) (optimization precision solver name : String) (ndim : ℕ) :
    optimizer mods configMesh optimization precision solver ndim name ≠ .none := by
  rcases C44_callable mods optimization precision solver name ndim with ⟨h, -⟩ | ⟨f, v, -, -, -, h⟩ <;> rw [h] <;> simp

/-- This rests on `config.mesh` not existing: the third lookup (optimization/__init__.py:40-41) has no fallback of its own, so with a
`config.mesh` and no matching function the decorated function would call `None`. -/
theorem optimizer_with_mesh_calls_none (optimization precision solver name mesh : String) (ndim : ℕ) :
    optimizer (fun _ => some fun _ => false) (some mesh) optimization precision solver ndim name = .none := by
  simp [optimizer]

/-- The modules of optimization/__init__.py with only cython installed and three of its functions. -/
private def cythonMods : String → Option (String → Bool) := fun m =>
  if m = "cython_double" ∨ m = "cython_single" then
    some fun n => n = "RK4" ∨ n = "AB2_2D" ∨ n = "add_pressure_diffusion_NS" else none

example : optimizer cythonMods configMesh "cython" "double" "NS" 3 "RK4" = .compiled "cython_double" "RK4" := by decide +kernel
example : optimizer cythonMods configMesh "cython" "double" "NS2D" 2 "AB2" = .compiled "cython_double" "AB2_2D" := by decide +kernel
example : optimizer cythonMods configMesh "cython" "double" "NS" 3 "add_pressure_diffusion"
    = .compiled "cython_double" "add_pressure_diffusion_NS" := by decide +kernel
example : optimizer cythonMods configMesh "cython" "double" "MHD" 3 "add_pressure_diffusion" = .numpy := by decide +kernel
example : optimizer cythonMods configMesh "numexpr" "double" "NS" 3 "cross1" = .numpy := by decide +kernel

/-! ## C45 -/

variable {κ : Type} [DecidableEq κ]

theorem rk4_eq {L : Nest κ} (hL : L.Full) (F : (κ → ℂ) → (κ → ℂ) → κ → ℂ) (a b : ℕ → ℝ) (dt : ℝ) (s : RK4Arrays (κ → ℂ)) :
    rk4 L F a b dt s = RK4 F a b dt s := by
  have hs : ∀ (s : RK4Arrays (κ → ℂ)) rk, rk4Stage L F a b dt s rk = SpectralDNS.rk4Stage F a b dt s rk := by
    intro s rk
    simp only [rk4Stage, SpectralDNS.rk4Stage, loop2_eq hL, loop3_eq hL]
  have hs' : rk4Stage L F a b dt = SpectralDNS.rk4Stage F a b dt := by funext s rk; exact hs s rk
  simp only [rk4, RK4, loop1_eq hL, loop4_eq hL, hs']

theorem ab2_eq {L : Nest κ} (hL : L.Full) (F : (κ → ℂ) → (κ → ℂ) → κ → ℂ) (dt : ℝ) (tstep : ℕ) (s : AB2Arrays (κ → ℂ)) :
    ab2 L 0 F dt tstep s = AB2 F dt tstep s := by
  simp only [ab2, AB2, loop5_eq hL, loop6_eq hL, loop7_eq hL]

/-- **C45** RK4: the compiled variants (cython, numba, pythran in three dimensions) leave all four arrays exactly as the numpy
version does, for arrays of any shape, any right-hand side, any coefficients and any step. -/
theorem C45_rk4 {n n0 n1 n2 : ℕ} (F : (Ix4 n n0 n1 n2 → ℂ) → (Ix4 n n0 n1 n2 → ℂ) → Ix4 n n0 n1 n2 → ℂ) (a b : ℕ → ℝ) (dt : ℝ)
    (s : RK4Arrays (Ix4 n n0 n1 n2 → ℂ)) : rk4 (nest4 n n0 n1 n2) F a b dt s = RK4 F a b dt s := rk4_eq (nest4_full ..) F a b dt s

/-- **C45** RK4 in two dimensions: cython's `RK4_2D`. -/
theorem C45_rk4_2D {n n0 n1 : ℕ} (F : (Ix3 n n0 n1 → ℂ) → (Ix3 n n0 n1 → ℂ) → Ix3 n n0 n1 → ℂ) (a b : ℕ → ℝ) (dt : ℝ)
    (s : RK4Arrays (Ix3 n n0 n1 → ℂ)) : rk4 (nest3 n n0 n1) F a b dt s = RK4 F a b dt s := rk4_eq (nest3_full ..) F a b dt s

/-- **C45** AB2 in three dimensions, all compiled variants. -/
theorem C45_ab2 {n n0 n1 n2 : ℕ} (F : (Ix4 n n0 n1 n2 → ℂ) → (Ix4 n n0 n1 n2 → ℂ) → Ix4 n n0 n1 n2 → ℂ) (dt : ℝ) (tstep : ℕ)
    (s : AB2Arrays (Ix4 n n0 n1 n2 → ℂ)) : cythonAB2 F dt tstep s = AB2 F dt tstep s := ab2_eq (nest4_full ..) F dt tstep s

/-- **C45** ForwardEuler of numba and pythran, as called by `getintegrator`. -/
theorem C45_forwardEuler {n n0 n1 n2 : ℕ} (F : (Ix4 n n0 n1 n2 → ℂ) → (Ix4 n n0 n1 n2 → ℂ) → Ix4 n n0 n1 n2 → ℂ) (dt : ℝ)
    (s : (Ix4 n n0 n1 n2 → ℂ) × (Ix4 n n0 n1 n2 → ℂ)) :
    callForwardEulerNumba (nest4 n n0 n1 n2) F dt s = .value (ForwardEuler F dt s) := by
  simp [callForwardEulerNumba, callWith, forwardEulerParamsNumba, forwardEulerArgs, forwardEuler, ForwardEuler,
    loop5_eq (nest4_full n n0 n1 n2)]

/-- **C45 fails** for cython's ForwardEuler: it declares a parameter `U_hat0` which the call does not pass, so every call raises. -/
theorem C45_forwardEuler_cython_false (L : Nest κ) (F : (κ → ℂ) → (κ → ℂ) → κ → ℂ) (dt : ℝ) (s : (κ → ℂ) × (κ → ℂ)) :
    callForwardEulerCython L F dt s = .typeError := by
  simp [callForwardEulerCython, callWith, forwardEulerParamsCython, forwardEulerArgs]

/-- **C45, partial** cython's `AB2_2D` agrees with numpy on every step but the first two (numbers 0 and 1). -/
theorem C45_ab2_2D_partial {n n0 n1 : ℕ} (F : (Ix3 n n0 n1 → ℂ) → (Ix3 n n0 n1 → ℂ) → Ix3 n n0 n1 → ℂ) (dt : ℝ) (tstep : ℕ)
    (h : 2 ≤ tstep) (s : AB2Arrays (Ix3 n n0 n1 → ℂ)) : cythonAB2_2D F dt tstep s = AB2 F dt tstep s := by
  have hL := nest3_full n n0 n1
  simp only [cythonAB2_2D, ab2, AB2, loop5_eq hL, loop6_eq hL, loop7_eq hL, if_neg (show ¬ tstep = 1 by omega),
    if_neg (show ¬ tstep = 0 by omega)]

/-- What the first step of cython's `AB2_2D` does from the initial arrays of `getintegrator` (`u1 = u0.copy()`): half of the initial
state is subtracted. -/
theorem C45_ab2_2D_first {n n0 n1 : ℕ} (F : (Ix3 n n0 n1 → ℂ) → (Ix3 n n0 n1 → ℂ) → Ix3 n n0 n1 → ℂ) (dt : ℝ)
    (u rhs : Ix3 n n0 n1 → ℂ) :
    (cythonAB2_2D F dt 0 ⟨u, u, rhs⟩).1.u0 = (0.5 : ℝ) • u + (1.5 * dt : ℝ) • F rhs u := by
  have hL := nest3_full n n0 n1
  funext i
  simp only [cythonAB2_2D, ab2, loop6_eq hL, if_neg (show ¬ (0 : ℕ) = 1 by omega), Pi.add_apply, Pi.sub_apply, Pi.smul_apply,
    Complex.real_smul]
  push_cast
  ring

/-- **C45 fails** for cython's `AB2_2D`: with a vanishing right-hand side numpy leaves every state alone, while `AB2_2D` halves it on
the first step, whatever the nonzero state. -/
theorem C45_ab2_2D_false {n n0 n1 : ℕ} (dt : ℝ) (u rhs : Ix3 n n0 n1 → ℂ) (hu : u ≠ 0) :
    (AB2 (fun _ _ => 0) dt 0 ⟨u, u, rhs⟩).1.u0 = u ∧ (cythonAB2_2D (fun _ _ => 0) dt 0 ⟨u, u, rhs⟩).1.u0 = (0.5 : ℝ) • u ∧
    (cythonAB2_2D (fun _ _ => 0) dt 0 ⟨u, u, rhs⟩).1.u0 ≠ (AB2 (fun _ _ => 0) dt 0 ⟨u, u, rhs⟩).1.u0 := by
  have h1 : (AB2 (fun _ _ => 0) dt 0 ⟨u, u, rhs⟩).1.u0 = u := by simp [AB2]
  have h2 : (cythonAB2_2D (fun _ _ => 0) dt 0 ⟨u, u, rhs⟩).1.u0 = (0.5 : ℝ) • u := by rw [C45_ab2_2D_first]; simp
  refine ⟨h1, h2, ?_⟩
  rw [h1, h2]
  intro h
  obtain ⟨i, hi⟩ := Function.ne_iff.1 hu
  have := congrFun h i
  simp only [Pi.smul_apply, Complex.real_smul] at this
  have h3 : ((0.5 : ℝ) : ℂ) = 1 := mul_right_cancel₀ hi (by rw [this, one_mul])
  norm_num at h3

/-- A non-trivial step. -/
example (u : Ix4 3 2 2 2 → ℂ) : cythonAB2 (fun _ u => -u) 0.1 0 ⟨u, u, 0⟩ = AB2 (fun _ u => -u) 0.1 0 ⟨u, u, 0⟩ := C45_ab2 _ _ _ _
example : ∃ u : Ix3 2 4 4 → ℂ, u ≠ 0 := ⟨fun _ => 1, fun h => one_ne_zero (congrFun h (0, 0, 0))⟩

end SpectralDNS.Opt

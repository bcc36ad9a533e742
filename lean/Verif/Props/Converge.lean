import Verif.Props.InvariantsFFT
import Verif.Props.FixedStep
import Verif.Props.BS5
import Verif.Lemmas.SolverQuad

/-!
# C93: the integrators converge to the solution of the semi-discrete equations, with their orders
-/

namespace SpectralDNS

open Spec

/-! ## The classical method has order four -/

/-- Classical Runge-Kutta matrix. -/
def rk4AQ (i j : ℕ) : ℚ := if i = 1 ∧ j = 0 then 1 / 2 else if i = 2 ∧ j = 1 then 1 / 2 else if i = 3 ∧ j = 2 then 1 else 0

/-- Classical Runge-Kutta weights. -/
def rk4bQ (i : ℕ) : ℚ := if i = 0 then 1 / 6 else if i = 1 then 1 / 3 else if i = 2 then 1 / 3 else if i = 3 then 1 / 6 else 0

set_option maxRecDepth 10000 in
theorem rk4_order4Q : HasOrder 4 rk4AQ rk4bQ 4 := by
  apply hasOrder_of_all
  decide +kernel

noncomputable def rk4A (i j : ℕ) : ℝ := (rk4AQ i j : ℚ)
noncomputable def rk4w (i : ℕ) : ℝ := (rk4bQ i : ℚ)

theorem rk4_order4 : HasOrder 4 rk4A rk4w 4 := hasOrder_cast 4 rk4AQ rk4bQ 4 rk4_order4Q

theorem rk4_explicit : Explicit 4 rk4A := by
  have : ∀ i < 4, ∀ j < 4, i ≤ j → rk4AQ i j = 0 := by decide +kernel
  intro i hi j hj hij
  rw [rk4A, this i hi j hj hij, Rat.cast_zero]

theorem rkNew_rk4 {V : Type*} [AddCommGroup V] [Module ℝ V] (f : V → V) (dt : ℝ) (u : V) :
    Spec.rkNew 4 rk4A rk4w f dt u = Spec.rk4 f dt u := by
  have h0 : stages rk4A f dt u 0 = f u := by rw [stages_eq]; simp
  have h1 : stages rk4A f dt u 1 = f (u + (dt / 2) • f u) := by
    rw [stages_eq, Finset.sum_range_one, h0]; norm_num [rk4A, rk4AQ, div_eq_mul_inv]
  have h2 : stages rk4A f dt u 2 = f (u + (dt / 2) • f (u + (dt / 2) • f u)) := by
    rw [stages_eq, Finset.sum_range_succ, Finset.sum_range_one, h0, h1]; norm_num [rk4A, rk4AQ, div_eq_mul_inv]
  have h3 : stages rk4A f dt u 3 = f (u + dt • f (u + (dt / 2) • f (u + (dt / 2) • f u))) := by
    rw [stages_eq, Finset.sum_range_succ, Finset.sum_range_succ, Finset.sum_range_one, h0, h1, h2]; norm_num [rk4A, rk4AQ]
  rw [Spec.rkNew, Finset.sum_range_succ, Finset.sum_range_succ, Finset.sum_range_succ, Finset.sum_range_one, h0, h1, h2, h3, Spec.rk4]
  simp only [rk4w, rk4bQ]
  norm_num
  module

/-! ## Chains of steps -/

section
variable {E : Type*} [NormedAddCommGroup E] [NormedSpace ℝ E]

/-- Every state is one step of the size taken from the previous one. -/
def Chain (step : ℝ → E → E) : E → List (E × ℝ × ℝ) → Prop
  | _, [] => True
  | u, o :: outs => o.1 = step o.2.2 u ∧ Chain step o.1 outs

theorem within_of_chain {step : ℝ → E → E} {y : ℝ → E} {H T e : ℝ}
    (hb : ∀ ds : List ℝ, (∀ d ∈ ds, 0 ≤ d ∧ d ≤ H) → ds.sum ≤ T → ‖ds.foldl (fun u d => step d u) (y 0) - y ds.sum‖ ≤ e) :
    ∀ (outs : List (E × ℝ × ℝ)) (pre : List ℝ), Chain step (pre.foldl (fun u d => step d u) (y 0)) outs →
      (∀ d ∈ pre, 0 ≤ d ∧ d ≤ H) → (∀ o ∈ outs, 0 ≤ o.2.2 ∧ o.2.2 ≤ H) → pre.sum + (outs.map fun o => o.2.2).sum ≤ T →
      Within y e pre.sum outs := by
  intro outs
  induction outs with
  | nil => intro _ _ _ _ _; trivial
  | cons o outs ih =>
    intro pre hc hpre hout hT
    have hsum : (pre ++ [o.2.2]).sum = pre.sum + o.2.2 := by simp
    have hfold : (pre ++ [o.2.2]).foldl (fun u d => step d u) (y 0) = o.1 := by rw [List.foldl_append]; exact hc.1.symm
    have hin : ∀ d ∈ pre ++ [o.2.2], 0 ≤ d ∧ d ≤ H := fun d hd => by
      rcases List.mem_append.1 hd with h | h
      · exact hpre d h
      · rw [List.mem_singleton.1 h]; exact hout o List.mem_cons_self
    have hrest : 0 ≤ (outs.map fun o => o.2.2).sum := List.sum_nonneg fun x hx => by
      obtain ⟨p, hp, rfl⟩ := List.mem_map.1 hx
      exact (hout p (List.mem_cons_of_mem _ hp)).1
    rw [List.map_cons, List.sum_cons] at hT
    refine ⟨?_, ?_⟩
    · have := hb (pre ++ [o.2.2]) hin (by rw [hsum]; linarith)
      rwa [hfold, hsum] at this
    · have := ih (pre ++ [o.2.2]) (by rw [hfold]; exact hc.2) hin (fun p hp => hout p (List.mem_cons_of_mem _ hp)) (by rw [hsum]; linarith)
      rwa [hsum] at this

/-- Methods whose every call is a one-step method of the size requested. -/
theorem outputs_of_step (F : E → E → E) (est : E → E → E → PyF) (fuel : ℕ) (m : Method) (step : ℝ → E → E)
    (h : ∀ (dt : ℝ) (tstep : ℕ) (c : Closure E), ∃ c', integrate F est fuel m dt tstep c = some (c', dt, dt) ∧ c'.u0 = step dt c.u0) :
    ∀ (ds : List ℝ) (tstep : ℕ) (c : Closure E), ∃ outs, runOutputs F est fuel m tstep ds c = some outs ∧
      (outs.map fun o => o.2.2) = ds ∧ Chain step c.u0 outs := by
  intro ds
  induction ds with
  | nil => exact fun _ _ => ⟨[], rfl, rfl, trivial⟩
  | cons d ds ih =>
    intro tstep c
    obtain ⟨c', h1, h2⟩ := h d tstep c
    obtain ⟨outs, h3, h4, h5⟩ := ih (tstep + 1) c'
    exact ⟨(c'.u0, d, d) :: outs, by simp [runOutputs, h1, h3], by simp [h4], h2, h5⟩

theorem chain_fixedRun (s : ℕ) (a : ℕ → ℕ → ℝ) (b : ℕ → ℝ) (f : E → E) : ∀ (ds : List ℝ) (u : E),
    Chain (Spec.rkNew s a b f) u (fixedRun s a b f ds u) ∧ ((fixedRun s a b f ds u).map fun o => o.2.2) = ds := by
  intro ds
  induction ds with
  | nil => exact fun _ => ⟨trivial, rfl⟩
  | cons d ds ih =>
    intro u
    exact ⟨⟨rfl, (ih _).1⟩, by simp [fixedRun, (ih _).2]⟩

theorem adapt_step {s : ℕ} {a : ℕ → ℕ → ℝ} {b bhat : ℕ → ℝ} {f : E → E} {p : ℕ} {est : E → E → E → PyF} {facmax dt : ℝ} {u : E}
    {rej : List ℝ} {r : E × ℝ × ℝ × PyF} (h : Adapt s a b bhat f p est facmax dt u rej r) : r.1 = Spec.rkNew s a b f r.2.2.1 u := by
  induction h with
  | accept => rfl
  | reject _ _ _ _ _ _ _ _ _ ih => exact ih

theorem chain_adaptRun {s : ℕ} {a : ℕ → ℕ → ℝ} {b bhat : ℕ → ℝ} {f : E → E} {p : ℕ} {est : E → E → E → PyF} {ds : List ℝ} {u : E}
    {outs : List (E × ℝ × ℝ)} (h : AdaptRun s a b bhat f p est ds u outs) : Chain (Spec.rkNew s a b f) u outs := by
  induction h with
  | nil => trivial
  | cons _ _ _ _ _ _ _ _ _ step _ ih => exact ⟨adapt_step step, ih⟩

theorem ab2_outputs (F : E → E → E) (f : E → E) (hF : ∀ r u, F r u = f u) (est : E → E → E → PyF) (fuel : ℕ) (h : ℝ) (u : E) (y : ℝ → E)
    (e : ℝ) : ∀ (m n : ℕ) (c : Closure E), c.u0 = ab2 f (fun _ => h) u n → (n = 0 ∨ c.u1 = h • f (ab2 f (fun _ => h) u (n - 1))) →
    (∀ i, i ≤ n + m → ‖ab2 f (fun _ => h) u i - y (i * h)‖ ≤ e) →
    ∃ outs, runOutputs F est fuel .AB2 n (List.replicate m h) c = some outs ∧ (outs.map fun o => o.2.2) = List.replicate m h ∧
      Within y e (n * h) outs := by
  intro m
  induction m with
  | zero => exact fun _ _ _ _ _ => ⟨[], rfl, rfl, trivial⟩
  | succ m ih =>
    intro n c h0 h1 hb
    obtain ⟨c', hi, hu0, hu1⟩ : ∃ c', integrate F est fuel .AB2 h n c = some (c', h, h) ∧ c'.u0 = ab2 f (fun _ => h) u (n + 1) ∧
        c'.u1 = h • f (ab2 f (fun _ => h) u n) := by
      refine ⟨_, rfl, ?_, by simp [AB2, hF, h0]⟩
      rcases n with _ | n
      · simp [AB2, hF, h0, ab2]
      · have h1' : c.u1 = h • f (ab2 f (fun _ => h) u n) := by
          rcases h1 with h1 | h1
          · omega
          · simpa using h1
        simp only [AB2, hF, h0, h1', ab2, Nat.add_eq_zero_iff, one_ne_zero, and_false, if_false]
        norm_num
        module
    obtain ⟨outs, h3, h4, h5⟩ := ih (n + 1) c' hu0 (Or.inr (by simpa using hu1)) (fun i hi => hb i (by omega))
    refine ⟨(c'.u0, h, h) :: outs, by simp [runOutputs, List.replicate_succ, hi, h3], by simp [h4, List.replicate_succ], ?_⟩
    have ht : (n : ℝ) * h + h = ((n + 1 : ℕ) : ℝ) * h := by push_cast; ring
    refine ⟨?_, ?_⟩
    · show ‖c'.u0 - y (n * h + h)‖ ≤ e
      rw [ht, hu0]
      exact hb (n + 1) (by omega)
    · show Within y e (n * h + h) outs
      rw [ht]
      exact h5

/-! ## Convergence for every equation with a quadratic right-hand side -/

variable [FiniteDimensional ℝ E] (F : E → E → E) (f : E → E) (hF : ∀ r u, F r u = f u) (hf : IsQuad f) (est : E → E → E → PyF)
  {T : ℝ} (hT : 0 ≤ T) {y : ℝ → E} (hy : SolvesOn f T y)

include hF hf hT hy

/-- C93.  One-step methods with fixed steps of any sizes: the error after every step is at most a constant times the largest step to the power
of the order. -/
theorem C93_fixed (name : String) (q : ℕ) (hq : (name, q) ∈ [("ForwardEuler", 1), ("RK4", 4), ("BS5_fixed", 5)]) :
    ∃ m, Method.ofName name = some m ∧ ∃ C H0 : ℝ, 0 < H0 ∧ ∀ H, 0 ≤ H → H ≤ H0 → ∀ ds : List ℝ, (∀ d ∈ ds, 0 ≤ d ∧ d ≤ H) → ds.sum ≤ T →
      ∀ (fuel : ℕ) (rhs : E), ∃ outs, runOutputs F est (fuel + 1) m 0 ds (getintegrator rhs (y 0)) = some outs ∧
        (outs.map fun o => o.2.2) = ds ∧ Within y (C * H ^ q) 0 outs := by
  have fin : ∀ (s : ℕ) (a : ℕ → ℕ → ℝ) (b : ℕ → ℝ) (m : Method), Explicit s a → 1 ≤ q → HasOrder s a b q →
      (∀ (ds : List ℝ) (fuel : ℕ) (rhs : E), ∃ outs, runOutputs F est (fuel + 1) m 0 ds (getintegrator rhs (y 0)) = some outs ∧
        (outs.map fun o => o.2.2) = ds ∧ Chain (Spec.rkNew s a b f) (y 0) outs) →
      ∃ C H0 : ℝ, 0 < H0 ∧ ∀ H, 0 ≤ H → H ≤ H0 → ∀ ds : List ℝ, (∀ d ∈ ds, 0 ≤ d ∧ d ≤ H) → ds.sum ≤ T →
      ∀ (fuel : ℕ) (rhs : E), ∃ outs, runOutputs F est (fuel + 1) m 0 ds (getintegrator rhs (y 0)) = some outs ∧
        (outs.map fun o => o.2.2) = ds ∧ Within y (C * H ^ q) 0 outs := by
    intro s a b m ha hq1 ho hr
    obtain ⟨C, H0, hH0, hC⟩ := rk_global hf.field ha hq1 ho hT hy
    refine ⟨C, H0, hH0, fun H h0 hH ds hds hsum fuel rhs => ?_⟩
    obtain ⟨outs, h1, h2, h3⟩ := hr ds fuel rhs
    refine ⟨outs, h1, h2, ?_⟩
    exact within_of_chain (step := Spec.rkNew s a b f) (fun ds h1 h2 => hC H h0 hH ds h1 h2) outs [] h3 (by simp)
      (fun o ho => hds _ (by rw [← h2]; exact List.mem_map_of_mem ho)) (by simpa [h2] using hsum)
  have hc : (name = "ForwardEuler" ∧ q = 1) ∨ (name = "RK4" ∧ q = 4) ∨ (name = "BS5_fixed" ∧ q = 5) := by simpa using hq
  rcases hc with ⟨rfl, rfl⟩ | ⟨rfl, rfl⟩ | ⟨rfl, rfl⟩
  · refine ⟨_, rfl, fin 1 (fun _ _ => 0) (fun _ => 1) _ euler_explicit le_rfl euler_order fun ds fuel rhs => ?_⟩
    exact outputs_of_step F est (fuel + 1) .ForwardEuler _ (fun dt tstep c => ⟨_, rfl, by simp [ForwardEuler, hF, rkNew_euler]⟩) ds 0
      (getintegrator rhs (y 0))
  · refine ⟨_, rfl, fin 4 rk4A rk4w _ rk4_explicit (by norm_num) rk4_order4 fun ds fuel rhs => ?_⟩
    refine outputs_of_step F est (fuel + 1) .RK4 _ (fun dt tstep c => ?_) ds 0 (getintegrator rhs (y 0))
    obtain ⟨c', h1, h2⟩ := C17_rk4_classical F f hF est (fuel + 1) .RK4 rfl dt tstep c
    exact ⟨c', h1, h2.trans (rkNew_rk4 f dt c.u0).symm⟩
  · refine ⟨_, rfl, fin bs5.s bs5.A bs5.b _ bs5_explicit (by norm_num) C21_bs5_order5 fun ds fuel rhs => ?_⟩
    exact ⟨_, C22_fsal_refines_fixed F f hF est fuel ds rhs (y 0), (chain_fixedRun _ _ _ _ _ _).2, (chain_fixedRun _ _ _ _ _ _).1⟩

/-- C93.  AB2 with a constant step, started afresh: order two. -/
theorem C93_ab2 : ∃ m, Method.ofName "AB2" = some m ∧ ∃ C H0 : ℝ, 0 < H0 ∧ ∀ h, 0 ≤ h → h ≤ H0 → ∀ n : ℕ, n * h ≤ T →
    ∀ (fuel : ℕ) (rhs : E), ∃ outs, runOutputs F est fuel m 0 (List.replicate n h) (getintegrator rhs (y 0)) = some outs ∧
      (outs.map fun o => o.2.2) = List.replicate n h ∧ Within y (C * h ^ 2) 0 outs := by
  obtain ⟨C, H0, hH0, hC⟩ := ab2_global hf.field hT hy
  refine ⟨_, rfl, C, H0, hH0, fun h h0 hH n hn fuel rhs => ?_⟩
  have := ab2_outputs F f hF est fuel h (y 0) y (C * h ^ 2) n 0 (getintegrator rhs (y 0)) rfl (Or.inl rfl) fun i hi => by
    refine hC h h0 hH i (le_trans ?_ hn)
    have : (i : ℝ) ≤ n := by exact_mod_cast (by omega : i ≤ n)
    exact mul_le_mul_of_nonneg_right this h0
  simpa using this

/-- C93.  BS5_adaptive: whatever the controller accepts, the error after every step is at most a constant times the fifth power of the largest
step taken. -/
theorem C93_adaptive (hest : ∀ a b c, (est a b c).Nonneg) :
    ∃ m, Method.ofName "BS5_adaptive" = some m ∧ ∃ C H0 : ℝ, 0 < H0 ∧ ∀ H, 0 ≤ H → H ≤ H0 → ∀ (ds : List ℝ) (fuel : ℕ) (rhs : E) outs,
      runOutputs F est fuel m 0 ds (getintegrator rhs (y 0)) = some outs → (∀ o ∈ outs, 0 ≤ o.2.2 ∧ o.2.2 ≤ H) →
      (outs.map fun o => o.2.2).sum ≤ T → Within y (C * H ^ 5) 0 outs := by
  obtain ⟨C, H0, hH0, hC⟩ := rk_global hf.field bs5_explicit (by norm_num) C21_bs5_order5 hT hy
  refine ⟨_, rfl, C, H0, hH0, fun H h0 hH ds fuel rhs outs hr ho hs => ?_⟩
  have hrun := (C22_fsal_refines F f hF est hest ds rhs (y 0) outs).1 ⟨fuel, hr⟩
  exact within_of_chain (step := Spec.rkNew bs5.s bs5.A bs5.b f) (fun ds h1 h2 => hC H h0 hH ds h1 h2) outs [] (chain_adaptRun hrun) (by simp) ho
    (by simpa using hs)

end

end SpectralDNS

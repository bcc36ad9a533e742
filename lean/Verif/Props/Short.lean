import Verif.Props.Slab
import Verif.Props.FixedStep
import Verif.Props.Solenoidal
import Verif.Lemmas.Convection

/-!
# C60–C62: the stand-alone solvers
-/

namespace SpectralDNS.Short

open Complex Periodic

variable {ι X : Type*}

/-! ## C60: the script against the package -/

/-- The context of the package's solver with the same transforms, wavenumbers, viscosity, mask, and no source. -/
noncomputable def ctx (s : Setup ι X) : Ctx 3 ι X := ⟨s.T, s.K, s.nu, some s.dealias, 0⟩

/-- The right-hand side of the script is the one of NS with convection "Vortex". -/
theorem C60_rhs (s : Setup ι X) (conv : Scratch 3 ι X → SArr 3 ι → SArr 3 ι → Space ι X → (Fin 3 → ι → ℝ) → SArr 3 ι)
    (hc : getConvection "Vortex" = some conv) (w : Scratch 3 ι X) (r u : SArr 3 ι) :
    rhs s (s.T.vbackward u) u = rhsNS (ctx s) (fun r u => conv w r u s.T s.K) r u := by
  obtain rfl : convVortex = conv := by simpa [getConvection] using hc
  have hcurl : Curl s u = compute_curl w.cplx0 u s.T s.K := by
    funext i
    fin_cases i <;> simp [Curl, compute_curl, Space.vbackward, cross2_3d, cross1_3d, Function.update, mul_comm]
  have hcross : ∀ a b : PArr 3 X, Cross s a b = Periodic.Cross w.real1 a b s.T := by
    intro a b
    funext i
    fin_cases i <;> simp [Cross, Periodic.Cross, Space.vforward, cross1_3d, Function.update]
  funext i k
  simp only [rhs, rhsNS, ComputeRHS, convVortex, maskNyquist, ctx, add_pressure_diffusion, hcurl, hcross, Pi.zero_apply, add_zero]

theorem step_eq (s : Setup ι X) (st : State ι X) (h : st.U = s.T.vbackward st.U_hat) :
    step s st = ⟨Spec.rk4 (fun u => rhs s (s.T.vbackward u) u) s.dt st.U_hat,
      s.T.vbackward (Spec.rk4 (fun u => rhs s (s.T.vbackward u) u) s.dt st.U_hat)⟩ := by
  have : ((List.range 4).foldl (stage s st.U_hat) (st, st.U_hat)).2 = Spec.rk4 (fun u => rhs s (s.T.vbackward u) u) s.dt st.U_hat := by
    simp only [List.range_succ, List.range_zero, List.nil_append, List.cons_append, List.foldl_cons, List.foldl_nil, stage, a, b, h,
      Spec.rk4]
    norm_num
    rw [show 1 / 2 * s.dt = s.dt / 2 by ring]
    module
  show State.mk _ _ = _
  rw [this]

theorem run_succ (s : Setup ι X) (U : PArr 3 X) (m : ℕ) : run s U (m + 1) = step s (run s U m) := by
  unfold run; rw [Function.iterate_succ_apply']

theorem run_eq (s : Setup ι X) (U : PArr 3 X) (h : s.T.vbackward (s.T.vforward U) = U) (m : ℕ) :
    run s U m = ⟨(Spec.rk4 (fun u => rhs s (s.T.vbackward u) u) s.dt)^[m] (s.T.vforward U),
      s.T.vbackward ((Spec.rk4 (fun u => rhs s (s.T.vbackward u) u) s.dt)^[m] (s.T.vforward U))⟩ := by
  induction m with
  | zero => simp [run, h]
  | succ m ih =>
    rw [run_succ, ih, step_eq s _ rfl, Function.iterate_succ_apply']

/-- C60.  Started from the velocity `U` (which the transforms reproduce), the script computes after every number of steps the
coefficients of the package's NS solver with convection "Vortex" and integrator "RK4", whatever the previous contents of the work
arrays there; and its velocity is their inverse transform. -/
theorem C60_refines (s : Setup ι X) (U : PArr 3 X) (hU : s.T.vbackward (s.T.vforward U) = U)
    (conv : Scratch 3 ι X → SArr 3 ι → SArr 3 ι → Space ι X → (Fin 3 → ι → ℝ) → SArr 3 ι) (hc : getConvection "Vortex" = some conv)
    (meth : Method) (hm : Method.ofName "RK4" = some meth) (w : Scratch 3 ι X) (r : SArr 3 ι)
    (est : SArr 3 ι → SArr 3 ι → SArr 3 ι → PyF) (fuel m : ℕ) :
    ∃ c', runSteps (rhsNS (ctx s) fun r u => conv w r u s.T s.K) est fuel meth 0 (List.replicate m s.dt)
        (getintegrator r (s.T.vforward U)) = some c' ∧
      (run s U m).U_hat = c'.u0 ∧ (run s U m).U = s.T.vbackward c'.u0 := by
  obtain ⟨c', h1, h2⟩ := iterate_run (rhsNS (ctx s) fun r u => conv w r u s.T s.K) est fuel meth s.dt
    (Spec.rk4 (fun u => rhs s (s.T.vbackward u) u) s.dt)
    (fun t c => C17_rk4_classical _ _ (fun r u => (C60_rhs s conv hc w r u).symm) est fuel meth hm s.dt t c) m 0
    (getintegrator r (s.T.vforward U))
  refine ⟨c', h1, ?_, ?_⟩ <;> rw [run_eq s U hU m, h2] <;> rfl

/-- C60.  Consequently the field of the script stays divergence free. -/
theorem C60_solenoidal (s : Setup ι X) (U : PArr 3 X) (hU : s.T.vbackward (s.T.vforward U) = U)
    (h0 : Spec.Solenoidal s.K (s.T.vforward U)) (m : ℕ) : Spec.Solenoidal s.K (run s U m).U_hat := by
  obtain ⟨c', h1, h2, -⟩ := C60_refines s U hU convVortex (by simp [getConvection]) .RK4 rfl ⟨0, 0, 0⟩ 0 (fun _ _ _ => .nan) 0 m
  rw [h2]
  exact C02_divergence_free_preserved (ctx s) _ (by intro k; simp [ctx, Spec.dot, Spec.at']) _ 0 .RK4 _ 0 0 _ h0 c' h1

theorem serial_inverse (N : ℕ) (he : Even N) (f : Points N → ℝ) : (serial N).backward ((serial N).forward f) = f := by
  funext x
  show irfft2 (fun k1 k2 => ifft (fun k0 => fft (fun x => rfft2 (fun y z => f (x, y, z)) k1 k2) k0) x.1) x.2.1 x.2.2 = f x
  have : ∀ k1 k2, ifft (fun k0 => fft (fun x => rfft2 (fun y z => f (x, y, z)) k1 k2) k0) x.1 = rfft2 (fun y z => f (x.1, y, z)) k1 k2 :=
    fun k1 k2 => congrFun (ifft_fft _) x.1
  simp only [this]
  exact congrFun (congrFun (irfft2_rfft2 he fun y z => f (x.1, y, z)) x.2.1) x.2.2

/-- C60.  The hypothesis on the transforms is met by every initial field of the script with the even grid size it is written for. -/
theorem C60_start (N : ℕ) (he : Even N) (nu dt : ℝ) (U : PArr 3 (Points N)) :
    (setup N nu dt).T.vbackward ((setup N nu dt).T.vforward U) = U := by
  funext i
  exact serial_inverse N he (U i)

/-- The script with its own grid `2^5` and any initial velocity. -/
example (nu dt : ℝ) (U : PArr 3 (Points (2 ^ 5))) (m : ℕ) :
    ∃ c', runSteps (rhsNS (ctx (setup (2 ^ 5) nu dt)) fun r u => convVortex ⟨0, 0, 0⟩ r u (serial _) (setup (2 ^ 5) nu dt).K)
        (fun _ _ _ => .nan) 0 .RK4 0 (List.replicate m dt) (getintegrator 0 ((serial _).vforward U)) = some c' ∧
      (run (setup (2 ^ 5) nu dt) U m).U_hat = c'.u0 ∧ (run (setup (2 ^ 5) nu dt) U m).U = (serial _).vbackward c'.u0 :=
  C60_refines (setup (2 ^ 5) nu dt) U (C60_start _ (by decide) _ _ _) _ (by simp [getConvection]) .RK4 rfl _ _ _ _ m

/-! ## C61: the number of ranks -/

/-- `s'` works on the same numbers as `s`, stored elsewhere: entry `k` of an array of `s'` is entry `e k` of that of `s`. -/
structure Pulls {ι' X' : Type*} (e : ι' → ι) (eX : X' → X) (s' : Setup ι' X') (s : Setup ι X) : Prop where
  forward : ∀ f, s'.T.forward (f ∘ eX) = s.T.forward f ∘ e
  backward : ∀ c, s'.T.backward (c ∘ e) = s.T.backward c ∘ eX
  K : ∀ i, s'.K i = s.K i ∘ e
  dealias : s'.dealias = s.dealias ∘ e
  nu : s'.nu = s.nu
  dt : s'.dt = s.dt

section pull

variable {ι' X' : Type*} {e : ι' → ι} {eX : X' → X} {s' : Setup ι' X'} {s : Setup ι X}

theorem rhs_pull (h : Pulls e eX s' s) (U : PArr 3 X) (u : SArr 3 ι) :
    rhs s' (fun i => U i ∘ eX) (fun i => u i ∘ e) = fun i => rhs s U u i ∘ e := by
  have hcurl : Curl s' (fun i => u i ∘ e) = fun i => Curl s u i ∘ eX := by
    funext i
    fin_cases i <;> simp only [Curl, ← h.backward, h.K] <;> rfl
  have hcross : ∀ a b : PArr 3 X, Cross s' (fun i => a i ∘ eX) (fun i => b i ∘ eX) = fun i => Cross s a b i ∘ e := by
    intro a b
    funext i
    fin_cases i <;> simp only [Cross, ← h.forward] <;> rfl
  have hK2 : ∀ k, K2 s'.K k = K2 s.K (e k) := by intro k; simp [K2, h.K]
  have hKo : ∀ i k, K_over_K2 s'.K i k = K_over_K2 s.K i (e k) := by intro i k; simp [K_over_K2, hK2, h.K]
  funext i k
  simp only [rhs, hcurl, hcross, hK2, hKo, h.K, h.dealias, h.nu, Function.comp_apply]

theorem stage_pull (h : Pulls e eX s' s) (u0 : SArr 3 ι) (st : State ι X × SArr 3 ι) (rk : ℕ) :
    stage s' (fun i => u0 i ∘ e) (⟨fun i => st.1.U_hat i ∘ e, fun i => st.1.U i ∘ eX⟩, fun i => st.2 i ∘ e) rk =
      (⟨fun i => (stage s u0 st rk).1.U_hat i ∘ e, fun i => (stage s u0 st rk).1.U i ∘ eX⟩, fun i => (stage s u0 st rk).2 i ∘ e) := by
  have hb : s'.T.vbackward (fun i => st.1.U_hat i ∘ e) = fun i => s.T.vbackward st.1.U_hat i ∘ eX := by
    funext i; exact h.backward _
  unfold stage
  by_cases h0 : rk > 0 <;> by_cases h3 : rk < 3 <;> simp only [h0, h3, if_true, if_false, hb, rhs_pull h, h.dt] <;> rfl

theorem step_pull (h : Pulls e eX s' s) (st : State ι X) :
    step s' ⟨fun i => st.U_hat i ∘ e, fun i => st.U i ∘ eX⟩ = ⟨fun i => (step s st).U_hat i ∘ e, fun i => (step s st).U i ∘ eX⟩ := by
  have key : ∀ (l : List ℕ) (r : State ι X × SArr 3 ι),
      l.foldl (stage s' (fun i => st.U_hat i ∘ e)) (⟨fun i => r.1.U_hat i ∘ e, fun i => r.1.U i ∘ eX⟩, fun i => r.2 i ∘ e) =
        (⟨fun i => (l.foldl (stage s st.U_hat) r).1.U_hat i ∘ e, fun i => (l.foldl (stage s st.U_hat) r).1.U i ∘ eX⟩,
          fun i => (l.foldl (stage s st.U_hat) r).2 i ∘ e) := by
    intro l
    induction l with
    | nil => intro r; rfl
    | cons a l ih => intro r; simp only [List.foldl_cons]; rw [stage_pull h, ih]
  unfold step
  have := key (List.range 4) (st, st.U_hat)
  dsimp only at this ⊢
  rw [this]
  dsimp only
  congr 1
  funext i
  exact h.backward _

theorem run_pull (h : Pulls e eX s' s) (U : PArr 3 X) (m : ℕ) :
    run s' (fun i => U i ∘ eX) m = ⟨fun i => (run s U m).U_hat i ∘ e, fun i => (run s U m).U i ∘ eX⟩ := by
  induction m with
  | zero =>
    unfold run
    simp only [Function.iterate_zero, id]
    congr 1
    funext i
    exact h.forward _
  | succ m ih =>
    rw [run_succ, ih, step_pull h, run_succ]

end pull

/-- Global index of an entry of the spectral array of rank `k.1`. -/
def toModes {P n : ℕ} (k : DModes P n) : Modes (P * n) := (k.2.1, glob k.1 k.2.2.1, k.2.2.2)

/-- Global index of a grid point of rank `x.1`. -/
def toPoints {P n : ℕ} (x : DPoints P n) : Points (P * n) := (glob x.1 x.2.1, x.2.2.1, x.2.2.2)

theorem dsetup_pulls (P n : ℕ) (nu dt : ℝ) : Pulls toModes toPoints (dsetup P n nu dt) (setup (P * n) nu dt) where
  forward := by
    intro f
    funext k
    obtain ⟨p, k0, b, c⟩ := k
    show fftn_mpi (fun q a y z => f (glob q a, y, z)) p k0 b c = fft (fun x => rfft2 (fun y z => f (x, y, z)) (glob p b) c) k0
    unfold fftn_mpi alltoall pack
    simp only [split_glob, glob_split]
  backward := by
    intro c
    funext x
    obtain ⟨p, a, y, z⟩ := x
    exact C54_backward P n (fun k0 k1 k2 => c (k0, k1, k2)) p a y z
  K := by
    intro i
    funext k
    fin_cases i <;> rfl
  dealias := by
    funext k
    show Dealias.dealias (P * n) (dwaves P n k) = Dealias.dealias (P * n) (waves (P * n) (toModes k))
    congr 1
  nu := rfl
  dt := rfl

/-- C61.  On `P` ranks, after every number of steps, rank `p` holds exactly its slabs of the arrays of the run on one rank: rows
`p*n .. p*n+n-1` of the second axis of the coefficients and of the first axis of the velocity (`C54_rows`). -/
theorem C61_ranks (P n : ℕ) (nu dt : ℝ) (U : PArr 3 (Points (P * n))) (m : ℕ) :
    (∀ i p k b c, (run (dsetup P n nu dt) (fun i x => U i (toPoints x)) m).U_hat i (p, k, b, c) =
      (run (setup (P * n) nu dt) U m).U_hat i (k, glob p b, c)) ∧
    ∀ i p a y z, (run (dsetup P n nu dt) (fun i x => U i (toPoints x)) m).U i (p, a, y, z) =
      (run (setup (P * n) nu dt) U m).U i (glob p a, y, z) := by
  have h := run_pull (dsetup_pulls P n nu dt) U m
  have h' : (fun i => U i ∘ toPoints) = fun i (x : DPoints P n) => U i (toPoints x) := rfl
  rw [h'] at h
  rw [h]
  exact ⟨fun _ _ _ _ _ => rfl, fun _ _ _ _ _ => rfl⟩

/-- C61.  Two runs on different numbers of ranks of the same grid agree entry by entry. -/
theorem C61_two_runs (P n P' n' : ℕ) (hN : P * n = P' * n') (nu dt : ℝ) (U : PArr 3 (Points (P * n))) (U' : PArr 3 (Points (P' * n')))
    (hU : ∀ i x, U i x = U' i (x.1.cast hN, x.2.1.cast hN, x.2.2.cast hN)) (m : ℕ) (i : Fin 3) (p : Fin P) (p' : Fin P') (a : Fin n)
    (a' : Fin n') (ha : p * n + a = p' * n' + (a' : ℕ)) (y z : Fin (P * n)) :
    (run (dsetup P n nu dt) (fun i x => U i (toPoints x)) m).U i (p, a, y, z) =
      (run (dsetup P' n' nu dt) (fun i x => U' i (toPoints x)) m).U i (p', a', y.cast hN, z.cast hN) := by
  rw [(C61_ranks P n nu dt U m).2, (C61_ranks P' n' nu dt U' m).2]
  have hg : ((glob p a : Fin (P * n)) : ℕ) = (glob p' a' : Fin (P' * n')) := by rw [C54_rows, C54_rows, ha]
  generalize glob p a = g at hg
  generalize glob p' a' = g' at hg
  generalize P * n = N at *
  subst hN
  obtain rfl : g = g' := Fin.ext hg
  have : U = U' := by funext i x; exact hU i x
  subst this
  rfl

/-! ## C62: the C++ program -/

/-- C62.  The right-hand side of the C++ program is `dt` times the script's, except that the mean mode is damped as if its wavenumber
were 1. -/
theorem C62_rhs_exact (s : Setup ι X) (U : PArr 3 X) (u : SArr 3 ι) (i : Fin 3) (k : ι) :
    rhsCpp s U u i k = s.dt * rhs s U u i k - if K2 s.K k = 0 then (s.nu * s.dt : ℝ) * u i k else 0 := by
  have hpos : 0 ≤ K2 s.K k := Finset.sum_nonneg fun i _ => mul_self_nonneg _
  have hkk : (kk s.K k : ℝ) = if K2 s.K k = 0 then 1 else K2 s.K k := by
    unfold kk
    by_cases h : K2 s.K k = 0
    · simp [h]
    · rw [if_pos (lt_of_le_of_ne hpos (Ne.symm h)), if_neg h]
  have h0 : (if K2 s.K k = 0 then (1 : ℝ) else K2 s.K k) ≠ 0 := by split <;> simp_all
  simp only [rhsCpp, rhs, hkk, K_over_K2, Fin.sum_univ_three]
  by_cases h : K2 s.K k = 0 <;> by_cases hd : s.dealias k = true
  all_goals simp only [h, hd, if_true, if_false]; push_cast; ring

/-- C62.  Away from the mean mode one stage agrees. -/
theorem C62_rhs_partial (s : Setup ι X) (U : PArr 3 X) (u : SArr 3 ι) (i : Fin 3) (k : ι) (h : ∃ j, s.K j k ≠ 0) :
    rhsCpp s U u i k = s.dt * rhs s U u i k := by
  rw [C62_rhs_exact, if_neg, sub_zero]
  intro h0
  obtain ⟨j, hj⟩ := h
  exact hj ((K2_eq_zero s.K k).1 h0 j)

/-- C62.  The first step of the C++ program, and every step from a state whose velocity belongs to its coefficients, gives the script's
coefficients provided no mode is treated as a mean mode (a grid without it, or after removing it).  Missing for the full claim: the
velocity, later steps and the mean mode, which are false below. -/
theorem C62_first_step_partial (s : Setup ι X) (hK : ∀ k, ∃ j, s.K j k ≠ 0) (st : State ι X) :
    (stepCpp s st).U_hat = (step s st).U_hat := by
  have hr : ∀ U u, rhsCpp s U u = s.dt • rhs s U u := by
    intro U u
    funext i k
    rw [C62_rhs_partial s U u i k (hK k)]
    simp
  have hs : stageCpp s st.U_hat = stage s st.U_hat := by
    funext r rk
    simp only [stageCpp, stage, hr, smul_smul]
  simp only [stepCpp, step, hs]

/-- C62.  What the C++ program leaves in `U` after a step: the transform of the coefficients entering the fourth stage, not of the new
coefficients. -/
theorem C62_velocity_exact (s : Setup ι X) (st : State ι X) :
    (stepCpp s st).U = s.T.vbackward
      (let d1 := rhsCpp s st.U st.U_hat
       let u1 := st.U_hat + (0.5 : ℝ) • d1
       let u2 := st.U_hat + (0.5 : ℝ) • rhsCpp s (s.T.vbackward u1) u1
       st.U_hat + rhsCpp s (s.T.vbackward u2) u2) := by
  simp only [stepCpp, List.range_succ, List.range_zero, List.nil_append, List.cons_append, List.foldl_cons, List.foldl_nil, stageCpp, b]
  norm_num

/-! ### Witnesses

One mode with wavenumber (0, 0, 1) and a transform pair that reproduces real numbers; there is no mean mode. -/

/-- The transform pair of the witnesses. -/
noncomputable def wT : Space Unit Unit := ⟨fun f _ => (f () : ℂ), fun c _ => (c ()).re + (c ()).im⟩

/-- Set-up of the witnesses: `nu = dt = 1`. -/
noncomputable def wS : Setup Unit Unit := ⟨wT, fun i _ => if i = 2 then 1 else 0, fun _ => true, 1, 1⟩

/-- Velocity with three real components. -/
def wU (v : Fin 3 → ℝ) : PArr 3 Unit := fun i _ => v i

/-- The same numbers as coefficients. -/
noncomputable def wH (v : Fin 3 → ℝ) : SArr 3 Unit := fun i _ => (v i : ℂ)

theorem wT_vforward (v : Fin 3 → ℝ) : wT.vforward (wU v) = wH v := rfl

theorem wT_vbackward (v : Fin 3 → ℝ) : wT.vbackward (wH v) = wU v := by
  funext i x; simp [Space.vbackward, wT, wH, wU]

theorem wS_K2 (k : Unit) : K2 wS.K k = 1 := by simp [K2, wS]

theorem wS_rhs (X Z x z : ℝ) : rhs wS (wU ![X, 0, Z]) (wH ![x, 0, z]) = wH ![-Z * x - x, 0, -z] := by
  have hc : Curl wS (wH ![x, 0, z]) = wU ![0, x, 0] := by
    funext i k
    fin_cases i <;> simp [Curl, wS, wT, wH, wU]
  funext i k
  simp only [rhs, hc]
  fin_cases i <;>
    simp [Fin.sum_univ_three, K_over_K2, Cross, wS, wT, wU, wH] <;> try (simp [K2]; try ring)

theorem wS_rhsCpp (X Z x z : ℝ) : rhsCpp wS (wU ![X, 0, Z]) (wH ![x, 0, z]) = wH ![-Z * x - x, 0, -z] := by
  funext i k
  rw [C62_rhs_partial wS _ _ i k ⟨2, by simp [wS]⟩, wS_rhs]
  simp [wS]

theorem wH_step (x z c x' z' : ℝ) : wH ![x, 0, z] + c • wH ![x', 0, z'] = wH ![x + c * x', 0, z + c * z'] := by
  funext i k
  fin_cases i <;> simp [wH]

theorem wS_stage (x0 z0 X Z x z xa za : ℝ) (rk : ℕ) :
    stage wS (wH ![x0, 0, z0]) (⟨wH ![x, 0, z], wU ![X, 0, Z]⟩, wH ![xa, 0, za]) rk =
      (⟨if rk < 3 then wH ![x0 + b rk * (-(if rk > 0 then z else Z) * x - x), 0, z0 + b rk * -z] else wH ![x, 0, z],
        if rk > 0 then wU ![x, 0, z] else wU ![X, 0, Z]⟩,
       wH ![xa + a rk * (-(if rk > 0 then z else Z) * x - x), 0, za + a rk * -z]) := by
  have h1 : wS.dt = 1 := rfl
  have h2 : wS.T = wT := rfl
  by_cases h0 : rk > 0 <;> by_cases h3 : rk < 3 <;>
    simp only [stage, h0, h3, if_true, if_false, h1, h2, mul_one, wT_vbackward, wS_rhs, wH_step]

theorem wS_stageCpp (x0 z0 X Z x z xa za : ℝ) (rk : ℕ) :
    stageCpp wS (wH ![x0, 0, z0]) (⟨wH ![x, 0, z], wU ![X, 0, Z]⟩, wH ![xa, 0, za]) rk =
      stage wS (wH ![x0, 0, z0]) (⟨wH ![x, 0, z], wU ![X, 0, Z]⟩, wH ![xa, 0, za]) rk := by
  have h1 : wS.dt = 1 := rfl
  have h2 : wS.T = wT := rfl
  by_cases h0 : rk > 0 <;> by_cases h3 : rk < 3 <;>
    simp only [stage, stageCpp, h0, h3, if_true, if_false, h1, h2, mul_one, wT_vbackward, wS_rhs, wS_rhsCpp, wH_step]

theorem wS_fold (x z X Z x1 z1 x2 z2 x3 z3 xn zn : ℝ) (h1 : x + 1 / 2 * (-Z * x - x) = x1) (g1 : z + 1 / 2 * -z = z1)
    (h2 : x + 1 / 2 * (-z1 * x1 - x1) = x2) (g2 : z + 1 / 2 * -z1 = z2) (h3 : x + (-z2 * x2 - x2) = x3) (g3 : z + -z2 = z3)
    (h4 : x + 1 / 6 * (-Z * x - x) + 1 / 3 * (-z1 * x1 - x1) + 1 / 3 * (-z2 * x2 - x2) + 1 / 6 * (-z3 * x3 - x3) = xn)
    (g4 : z + 1 / 6 * -z + 1 / 3 * -z1 + 1 / 3 * -z2 + 1 / 6 * -z3 = zn) :
    (List.range 4).foldl (stage wS (wH ![x, 0, z])) (⟨wH ![x, 0, z], wU ![X, 0, Z]⟩, wH ![x, 0, z]) =
      (⟨wH ![x3, 0, z3], wU ![x3, 0, z3]⟩, wH ![xn, 0, zn]) ∧
    (List.range 4).foldl (stageCpp wS (wH ![x, 0, z])) (⟨wH ![x, 0, z], wU ![X, 0, Z]⟩, wH ![x, 0, z]) =
      (⟨wH ![x3, 0, z3], wU ![x3, 0, z3]⟩, wH ![xn, 0, zn]) := by
  have e0 : b 0 = 1 / 2 := by norm_num [b]
  have e1 : b 1 = 1 / 2 := by norm_num [b]
  have e2 : b 2 = 1 := by norm_num [b]
  have f0 : a 0 = 1 / 6 := by norm_num [a]
  have f1 : a 1 = 1 / 3 := by norm_num [a]
  have f2 : a 2 = 1 / 3 := by norm_num [a]
  have f3 : a 3 = 1 / 6 := by norm_num [a]
  constructor
  all_goals
    simp only [List.range_succ, List.range_zero, List.nil_append, List.cons_append, List.foldl_cons, List.foldl_nil]
    simp only [wS_stageCpp, wS_stage, gt_iff_lt, lt_irrefl, if_true, if_false, zero_lt_one, show (0 : ℕ) < 3 by norm_num,
      show (1 : ℕ) < 3 by norm_num, show (2 : ℕ) < 3 by norm_num, show (0 : ℕ) < 2 by norm_num, e0, e1, e2, f0, f1, f2, f3, one_mul,
      h1, g1, h2, g2, h3, g3, h4, g4]

theorem wS_stepCpp {x z X Z x3 z3 xn zn : ℝ}
    (h : (List.range 4).foldl (stageCpp wS (wH ![x, 0, z])) (⟨wH ![x, 0, z], wU ![X, 0, Z]⟩, wH ![x, 0, z]) =
      (⟨wH ![x3, 0, z3], wU ![x3, 0, z3]⟩, wH ![xn, 0, zn])) :
    stepCpp wS ⟨wH ![x, 0, z], wU ![X, 0, Z]⟩ = ⟨wH ![xn, 0, zn], wU ![x3, 0, z3]⟩ := by
  simp only [stepCpp, h]

theorem wS_step {x z X Z x3 z3 xn zn : ℝ}
    (h : (List.range 4).foldl (stage wS (wH ![x, 0, z])) (⟨wH ![x, 0, z], wU ![X, 0, Z]⟩, wH ![x, 0, z]) =
      (⟨wH ![x3, 0, z3], wU ![x3, 0, z3]⟩, wH ![xn, 0, zn])) :
    step wS ⟨wH ![x, 0, z], wU ![X, 0, Z]⟩ = ⟨wH ![xn, 0, zn], wU ![xn, 0, zn]⟩ := by
  simp only [step, h, show wS.T = wT from rfl, wT_vbackward]

/-- C62 is false for the velocities: already after one step of pure diffusion of the divergence-free field (1, 0, 0) the C++ program
holds (and prints the energy of) 1/4 where the script holds 3/8. -/
theorem C62_velocity_false : Spec.Solenoidal wS.K (wT.vforward (wU ![1, 0, 0])) ∧
    (runCpp wS (wU ![1, 0, 0]) 1).U 0 () = 1 / 4 ∧ (run wS (wU ![1, 0, 0]) 1).U 0 () = 3 / 8 := by
  have h := wS_fold 1 0 1 0 (1 / 2) 0 (3 / 4) 0 (1 / 4) 0 (3 / 8) 0 (by norm_num) (by norm_num) (by norm_num) (by norm_num)
    (by norm_num) (by norm_num) (by norm_num) (by norm_num)
  refine ⟨?_, ?_, ?_⟩
  · intro k
    simp [Spec.dot, Spec.at', wS, wT, wU, Space.vforward, Fin.sum_univ_three]
  · show (stepCpp wS ⟨wH ![1, 0, 0], wU ![1, 0, 0]⟩).U 0 () = _
    rw [wS_stepCpp h.2]
    simp [wU]
  · show (step wS ⟨wH ![1, 0, 0], wU ![1, 0, 0]⟩).U 0 () = _
    rw [wS_step h.1]
    simp [wU]

/-- C62 is false for the coefficients from the second step on, because its first stage uses the velocity left behind by the step
before. -/
theorem C62_coefficients_false : (runCpp wS (wU ![1, 0, 1]) 1).U_hat = (run wS (wU ![1, 0, 1]) 1).U_hat ∧
    (runCpp wS (wU ![1, 0, 1]) 2).U_hat 0 () ≠ (run wS (wU ![1, 0, 1]) 2).U_hat 0 () := by
  have h := wS_fold 1 1 1 1 0 (1 / 2) 1 (3 / 4) (-3 / 4) (1 / 4) (23 / 96) (3 / 8) (by norm_num) (by norm_num) (by norm_num) (by norm_num)
    (by norm_num) (by norm_num) (by norm_num) (by norm_num)
  have h1 : runCpp wS (wU ![1, 0, 1]) 1 = ⟨wH ![23 / 96, 0, 3 / 8], wU ![-3 / 4, 0, 1 / 4]⟩ := wS_stepCpp h.2
  have h2 : run wS (wU ![1, 0, 1]) 1 = ⟨wH ![23 / 96, 0, 3 / 8], wU ![23 / 96, 0, 3 / 8]⟩ := wS_step h.1
  have e1 : runCpp wS (wU ![1, 0, 1]) 2 = stepCpp wS (runCpp wS (wU ![1, 0, 1]) 1) := rfl
  have e2 : run wS (wU ![1, 0, 1]) 2 = step wS (run wS (wU ![1, 0, 1]) 1) := rfl
  refine ⟨by rw [h1, h2], ?_⟩
  rw [e1, e2, h1, h2, wS_stepCpp (wS_fold _ _ _ _ _ _ _ _ _ _ _ _ rfl rfl rfl rfl rfl rfl rfl rfl).2,
    wS_step (wS_fold _ _ _ _ _ _ _ _ _ _ _ _ rfl rfl rfl rfl rfl rfl rfl rfl).1]
  simp only [wH, Matrix.cons_val_zero, ne_eq, Complex.ofReal_inj]
  norm_num

/-- The mean mode: with viscosity a uniform flow is constant in the script but decays in the C++ program. -/
theorem C62_mean_false (s : Setup ι X) (k : ι) (hk : ∀ i, s.K i k = 0) (U : PArr 3 X) (u : SArr 3 ι) (i : Fin 3)
    (h : rhs s U u i k = 0) (hν : s.nu * s.dt ≠ 0) (hu : u i k ≠ 0) : rhsCpp s U u i k ≠ 0 := by
  rw [C62_rhs_exact, h, mul_zero, zero_sub, if_pos ((K2_eq_zero s.K k).2 hk), neg_ne_zero]
  exact mul_ne_zero (by exact_mod_cast hν) hu

/-- Uniform flow: one mean mode, velocity 1, the script's right-hand side vanishes and that of the C++ program does not. -/
example : rhs (⟨wT, fun _ _ => 0, fun _ => true, 1, 1⟩ : Setup Unit Unit) (wU ![1, 0, 0]) (wH ![1, 0, 0]) 0 () = 0 ∧
    rhsCpp (⟨wT, fun _ _ => 0, fun _ => true, 1, 1⟩ : Setup Unit Unit) (wU ![1, 0, 0]) (wH ![1, 0, 0]) 0 () ≠ 0 := by
  have h : rhs (⟨wT, fun _ _ => 0, fun _ => true, 1, 1⟩ : Setup Unit Unit) (wU ![1, 0, 0]) (wH ![1, 0, 0]) 0 () = 0 := by
    simp [rhs, Curl, Cross, wT, wU, wH, K2]
  exact ⟨h, C62_mean_false _ () (fun _ => rfl) _ _ 0 h (by norm_num) (by simp [wH])⟩

end SpectralDNS.Short

import Verif.Model.NSShenfun
import Verif.Lemmas.FourierHerm
import Verif.Props.Short
import Verif.Props.TaylorGreen
import Verif.Props.GlobalSolutions

/-!
# C96: demo/NS_shenfun.py
-/

namespace SpectralDNS.NSShenfun

open Complex Periodic Demos Spec

variable (N : Fin 3 → ℕ)

/-- The package's solver NS on the same grid with the same wavenumbers, without dealiasing, mask and source. -/
noncomputable def ctx (nu : ℝ) : Ctx 3 (RModes N) (Grid N) := ⟨rspace N N, K N, nu, none, 0⟩

/-- Its right-hand side with the convection "Vortex". -/
noncomputable def F (nu : ℝ) (r u : SArr 3 (RModes N)) : SArr 3 (RModes N) :=
  rhsNS (ctx N nu) (fun r u => convVortex ⟨0, 0, 0⟩ r u (rspace N N) (K N)) r u

theorem rhs_eq (nu : ℝ) (w : Scratch 3 (RModes N) (Grid N)) (r u : SArr 3 (RModes N)) (U : PArr 3 (Grid N)) (rk : ℕ)
    (hU : rk = 0 → U = (T N).vbackward u) :
    ComputeRHS N nu U u rk = ((T N).vbackward u, rhsNS (ctx N nu) (fun r u => convVortex w r u (rspace N N) (K N)) r u) := by
  have hU' : (if rk > 0 then (T N).vbackward u else U) = (T N).vbackward u := by
    split
    · rfl
    · exact hU (by omega)
  have hcurl : Curl N u = compute_curl w.cplx0 u (rspace N N) (K N) := by
    funext i
    fin_cases i <;> simp [Curl, T, compute_curl, Space.vbackward, cross2_3d, cross1_3d, Function.update, mul_comm]
  have hcross : ∀ a b : PArr 3 (Grid N), Cross N a b = Periodic.Cross w.real1 a b (rspace N N) := by
    intro a b
    funext i
    fin_cases i <;> simp [Cross, T, Periodic.Cross, Space.vforward, cross1_3d, Function.update]
  simp only [ComputeRHS, hU']
  refine Prod.ext rfl ?_
  funext i k
  simp only [rhsNS, Periodic.ComputeRHS, convVortex, maskNyquist, ctx, add_pressure_diffusion, hcurl, hcross, Pi.zero_apply, add_zero, T]

theorem rhs_F (nu : ℝ) (w : Scratch 3 (RModes N) (Grid N)) (r u : SArr 3 (RModes N)) :
    rhsNS (ctx N nu) (fun r u => convVortex w r u (rspace N N) (K N)) r u = F N nu 0 u := by
  have h1 := rhs_eq N nu w r u _ 0 fun _ => rfl
  have h2 := rhs_eq N nu ⟨0, 0, 0⟩ 0 u _ 0 fun _ => rfl
  exact (Prod.ext_iff.1 (h1.symm.trans h2)).2

theorem step_eq (nu dt : ℝ) (s : State N) (h : s.U = (T N).vbackward s.U_hat) :
    step N nu dt s = ⟨s.t + dt, s.tstep + 1, (T N).vbackward (Spec.rk4 (F N nu 0) dt s.U_hat), Spec.rk4 (F N nu 0) dt s.U_hat⟩ := by
  have hF : ∀ u r, rhsNS (ctx N nu) (fun r u => convVortex ⟨0, 0, 0⟩ r u (rspace N N) (K N)) r u = F N nu 0 u :=
    fun u r => rhs_F N nu _ r u
  have key : ((List.range 4).foldl (stage N nu dt s.U_hat) (s.U, s.U_hat, s.U_hat)).2.2 = Spec.rk4 (F N nu 0) dt s.U_hat := by
    have e0 := rhs_eq N nu ⟨0, 0, 0⟩ 0 s.U_hat s.U 0 fun _ => h
    simp only [List.range_succ, List.range_zero, List.nil_append, List.cons_append, List.foldl_cons, List.foldl_nil, stage]
    rw [e0]
    simp only [rhs_eq N nu ⟨0, 0, 0⟩ 0 _ _ 1 (by simp), rhs_eq N nu ⟨0, 0, 0⟩ 0 _ _ 2 (by simp), rhs_eq N nu ⟨0, 0, 0⟩ 0 _ _ 3 (by simp), hF,
      a, b, List.getD_cons_zero, List.getD_cons_succ, Spec.rk4]
    norm_num
    rw [show 1 / 2 * dt = dt / 2 by ring]
    module
  show State.mk _ _ _ _ = _
  rw [key]

theorem start_velocity (hN : ∀ i, 0 < N i) : (start N).U = (T N).vbackward (start N).U_hat :=
  (C70_round_trip N hN _).symm

/-- All arrays after `m` passes of the loop. -/
theorem iterate_eq (hN : ∀ i, 0 < N i) (nu dt : ℝ) (m : ℕ) :
    (step N nu dt)^[m] (start N) = ⟨m * dt, m, (T N).vbackward ((Spec.rk4 (F N nu 0) dt)^[m] (start N).U_hat),
      (Spec.rk4 (F N nu 0) dt)^[m] (start N).U_hat⟩ := by
  induction m with
  | zero =>
    have := start_velocity N hN
    simp only [Function.iterate_zero, id, Nat.cast_zero, zero_mul]
    rw [← this]
    rfl
  | succ m ih =>
    rw [Function.iterate_succ_apply', ih, step_eq N nu dt _ rfl, Function.iterate_succ_apply']
    push_cast
    congr 1
    ring

/-! ## The loop -/

/-- C96.  With a positive step the loop ends after `ceil((end_time-1e-8)/dt)` passes. -/
theorem C96_ends (nu dt end_time : ℝ) (hdt : 0 < dt) (fuel : ℕ) (hf : ⌈(end_time - 1e-8) / dt⌉₊ < fuel) :
    loop N nu dt end_time fuel (start N) = some ((step N nu dt)^[⌈(end_time - 1e-8) / dt⌉₊] (start N)) := by
  have ht : ∀ m, ((step N nu dt)^[m] (start N)).t = m * dt := by
    intro m
    induction m with
    | zero => simp [start]
    | succ m ih =>
      rw [Function.iterate_succ_apply']
      show ((step N nu dt)^[m] (start N)).t + dt = _
      rw [ih]; push_cast; ring
  have key : ∀ (j m fuel : ℕ), m + j = ⌈(end_time - 1e-8) / dt⌉₊ → j < fuel →
      loop N nu dt end_time fuel ((step N nu dt)^[m] (start N)) = some ((step N nu dt)^[⌈(end_time - 1e-8) / dt⌉₊] (start N)) := by
    intro j
    induction j with
    | zero =>
      intro m fuel hm hf
      obtain ⟨fuel, rfl⟩ := Nat.exists_eq_succ_of_ne_zero (by omega : fuel ≠ 0)
      rw [loop, if_neg, ← hm, add_zero]
      rw [ht, not_lt, ← div_le_iff₀ hdt]
      exact Nat.ceil_le.1 (by omega)
    | succ j ih =>
      intro m fuel hm hf
      obtain ⟨fuel, rfl⟩ := Nat.exists_eq_succ_of_ne_zero (by omega : fuel ≠ 0)
      rw [loop, if_pos, ← Function.iterate_succ_apply' (step N nu dt)]
      · exact ih (m + 1) fuel (by omega) (by omega)
      · rw [ht, ← lt_div_iff₀ hdt]
        exact Nat.lt_ceil.1 (by omega)
  exact key _ 0 fuel (by omega) hf

/-- C96.  If the end time is `m` steps longer than the tolerance, exactly `m` passes are made and the clock shows the end time. -/
theorem C96_lands (hN : ∀ i, 0 < N i) (nu dt end_time : ℝ) (hdt : 1e-8 < dt) (m : ℕ) (he : end_time = m * dt) (fuel : ℕ) (hf : m < fuel) :
    ∃ s, loop N nu dt end_time fuel (start N) = some s ∧ s = (step N nu dt)^[m] (start N) ∧ s.t = end_time ∧ s.tstep = m := by
  have h0 : (0 : ℝ) < 1e-8 := by norm_num
  have hd : 0 < dt := h0.trans hdt
  have hc : ⌈(end_time - 1e-8) / dt⌉₊ = m := by
    have e : (end_time - 1e-8) / dt = m - 1e-8 / dt := by rw [he]; field_simp
    have h1 : 1e-8 / dt < 1 := (div_lt_one hd).2 hdt
    have h2 : 0 < 1e-8 / dt := div_pos h0 hd
    rw [e]
    rcases Nat.eq_zero_or_pos m with rfl | hm
    · rw [Nat.ceil_eq_zero]; push_cast; linarith
    · rw [Nat.ceil_eq_iff (by omega)]
      have : ((m - 1 : ℕ) : ℝ) = m - 1 := by rw [Nat.cast_sub hm]; simp
      rw [this]
      constructor <;> linarith
  refine ⟨_, C96_ends N nu dt end_time hd fuel (by rw [hc]; exact hf), by rw [hc], ?_, ?_⟩ <;> rw [hc, iterate_eq N hN]
  exact he.symm

/-- C96.  The script's own numbers: ten passes, as many as the step and the end time say. -/
example (hN : ∀ i, 0 < N i) (nu : ℝ) : ∃ s, loop N nu 0.01 0.1 11 (start N) = some s ∧ s = (step N nu 0.01)^[10] (start N) ∧ s.t = 0.1 ∧ s.tstep = 10 :=
  C96_lands N hN nu 0.01 0.1 (by norm_num) 10 (by norm_num) 11 (by norm_num)

/-- C96.  With a step that is not positive the loop does not end (unless the end time is within the tolerance). -/
theorem C96_never_ends (nu dt end_time : ℝ) (hdt : dt ≤ 0) (he : 1e-8 < end_time) (fuel : ℕ) : loop N nu dt end_time fuel (start N) = none := by
  have key : ∀ (fuel : ℕ) (s : State N), s.t ≤ 0 → loop N nu dt end_time fuel s = none := by
    intro fuel
    induction fuel with
    | zero => exact fun _ _ => rfl
    | succ fuel ih =>
      intro s hs
      rw [loop, if_pos (by linarith)]
      exact ih _ (by show s.t + dt ≤ 0; linarith)
  exact key fuel _ le_rfl

/-! ## The package -/

/-- C96.  After every number of passes the coefficients are those of the package's NS solver with convection "Vortex" and integrator "RK4" on
the same grid and wavenumbers, and `U` is their inverse transform. -/
theorem C96_refines (hN : ∀ i, 0 < N i) (nu dt : ℝ)
    (conv : Scratch 3 (RModes N) (Grid N) → SArr 3 (RModes N) → SArr 3 (RModes N) → Space (RModes N) (Grid N) → (Fin 3 → RModes N → ℝ) → SArr 3 (RModes N))
    (hc : getConvection "Vortex" = some conv) (meth : Method) (hm : Method.ofName "RK4" = some meth) (w : Scratch 3 (RModes N) (Grid N))
    (r : SArr 3 (RModes N)) (est : SArr 3 (RModes N) → SArr 3 (RModes N) → SArr 3 (RModes N) → PyF) (fuel m : ℕ) :
    ∃ c', runSteps (rhsNS (ctx N nu) fun r u => conv w r u (rspace N N) (K N)) est fuel meth 0 (List.replicate m dt)
        (getintegrator r (initialize1 N fun _ => 2 * Real.pi)) = some c' ∧
      ((step N nu dt)^[m] (start N)).U_hat = c'.u0 ∧ ((step N nu dt)^[m] (start N)).U = (rspace N N).vbackward c'.u0 := by
  obtain rfl : convVortex = conv := by simpa [getConvection] using hc
  obtain ⟨c', h1, h2⟩ := iterate_run (rhsNS (ctx N nu) fun r u => convVortex w r u (rspace N N) (K N)) est fuel meth dt
    (Spec.rk4 (F N nu 0) dt) (fun t c => C17_rk4_classical _ _ (fun r u => rhs_F N nu w r u) est fuel meth hm dt t c) m 0
    (getintegrator r (initialize1 N fun _ => 2 * Real.pi))
  refine ⟨c', h1, ?_, ?_⟩ <;> rw [iterate_eq N hN, h2] <;> rfl

/-! ## Real fields -/

theorem K_odd (k k' : RModes N) (h : Opposite N k k') (i : Fin 3) : K N i k' = -K N i k := by
  unfold K
  rcases opposite_cases N k k' h i with h | ⟨h, hn⟩
  · by_cases hc : 2 * waves N i k = N i ∨ 2 * waves N i k = -(N i : ℤ)
    · rw [if_pos hc, if_pos (by omega), neg_zero]
    · rw [if_neg hc, if_neg (by omega), h]; push_cast; ring
  · rw [if_pos hn, if_pos (by omega), neg_zero]

theorem realModes (nu : ℝ) : RealModes (Opposite N) (ctx N nu) where
  forward f k k' h _ := forward_opposite N f k k' h
  sign k k' h i := Or.inl (K_odd N k k' h i)
  odd k k' h := Or.inl (K_odd N k k' h)

theorem F_herm (nu : ℝ) (u : SArr 3 (RModes N)) (hu : Hermitian (Opposite N) u) : Hermitian (Opposite N) (F N nu 0 u) :=
  rhsNS_herm (realModes N nu) (fun m hm => by simp [ctx] at hm) _ 0 u
    (conv_hermOdd (c := ctx N nu) (realModes N nu) "Vortex" _ (by simp [getConvection]) ⟨0, 0, 0⟩ 0 u) hu
    (fun k k' _ i => by simp [ctx])

theorem start_herm : Hermitian (Opposite N) (start N).U_hat := fun k k' h i => forward_opposite N _ k k' h

theorem rk4_mem {E : Type*} [AddCommGroup E] [Module ℝ E] (S : Submodule ℝ E) (f : E → E) (hf : ∀ u ∈ S, f u ∈ S) (dt : ℝ) (u : E) (hu : u ∈ S) :
    Spec.rk4 f dt u ∈ S := by
  have h1 := hf u hu
  have h2 := hf _ (S.add_mem hu (S.smul_mem (dt / 2) h1))
  have h3 := hf _ (S.add_mem hu (S.smul_mem (dt / 2) h2))
  have h4 := hf _ (S.add_mem hu (S.smul_mem dt h3))
  exact S.add_mem hu (S.smul_mem _ (S.add_mem (S.add_mem (S.add_mem h1 (S.smul_mem _ h2)) (S.smul_mem _ h3)) h4))

theorem rk4_iterate_mem {E : Type*} [AddCommGroup E] [Module ℝ E] (S : Submodule ℝ E) (f : E → E) (hf : ∀ u ∈ S, f u ∈ S) (dt : ℝ) (u : E) (hu : u ∈ S)
    (m : ℕ) : (Spec.rk4 f dt)^[m] u ∈ S := by
  induction m with
  | zero => exact hu
  | succ m ih => rw [Function.iterate_succ_apply']; exact rk4_mem S f hf dt _ ih

/-- C96.  The coefficients always belong to a real field, Nyquist modes included: they have Hermitian symmetry, nothing is lost by going to the
grid and back, and the number `k` of line 79 is the energy computed from them. -/
theorem C96_real (hN : ∀ i, 0 < N i) (nu dt : ℝ) (m : ℕ) :
    let s := (step N nu dt)^[m] (start N)
    Hermitian (Opposite N) s.U_hat ∧ (rspace N N).vforward s.U = s.U_hat ∧ kinetic N s.U = Spec.energy (rweight N) s.U_hat := by
  intro s
  have hs : s = _ := iterate_eq N hN nu dt m
  have hh : Hermitian (Opposite N) s.U_hat := by
    rw [hs]; exact rk4_iterate_mem (Spec.hermitian (Opposite N)) _ (F_herm N nu) dt _ (start_herm N) m
  have hf : (rspace N N).vforward s.U = s.U_hat := by
    have hU : s.U = (rspace N N).vbackward s.U_hat := by rw [hs]; rfl
    rw [hU]
    funext i
    exact forward_backward_herm N hN (s.U_hat i) fun k k' h => hh k k' h i
  refine ⟨hh, hf, ?_⟩
  have hU : (rspace N N).vbackward s.U_hat = s.U := by rw [hs]; rfl
  have h := adjoint_energy N N s.U_hat s.U hf hU
  rw [gridEnergy, energyFourier] at h
  have e : Spec.energy (rweight N) s.U_hat = (∑ k, rweight N k * ∑ i, Complex.normSq (s.U_hat i k)) / 2 := by
    rw [Spec.energy, Finset.sum_comm]
    simp only [Finset.mul_sum]
    rw [Finset.sum_div]
    refine Finset.sum_congr rfl fun k _ => ?_
    rw [Finset.sum_div]
    exact Finset.sum_congr rfl fun i _ => by ring
  rw [e, h, kinetic]
  ring

/-! ## Start -/

theorem start_hat : (start N).U_hat = initialize1 N fun _ => 2 * Real.pi := rfl

/-- C96.  With at least three points per direction the start is divergence free with respect to the wavenumbers the script uses, and `k` starts
at 1/8. -/
theorem C96_start (hN : ∀ i, 2 < N i) : Spec.Solenoidal (K N) (start N).U_hat ∧ kinetic N (start N).U = 1 / 8 := by
  have hp : ∀ i, 0 < N i := fun i => by have := hN i; omega
  have h := C71_taylor_green (fun _ => 1) N (fun _ => one_pos) (fun i => by simpa using hN i) (fun _ => 2 * Real.pi) (fun _ => by simp) 0
  refine ⟨fun k => ?_, ?_⟩
  · by_cases hk : ∀ i, ¬ (2 * waves N i k = N i ∨ 2 * waves N i k = -(N i : ℤ))
    · have e : at' (K N) k = at' (scaledWaves N fun _ => 2 * Real.pi) k := by
        funext i
        have : (2 * Real.pi) ≠ 0 := by positivity
        simp only [at', K, if_neg (hk i), scaledWaves]
        field_simp
      rw [e]
      exact h.1 k
    · push Not at hk
      obtain ⟨i, hi⟩ := hk
      have e : ∀ j, (start N).U_hat j k = 0 := by
        intro j
        have hb : (fun _ : Fin 3 => 2 * Real.pi) = box fun _ => 1 := by funext i; simp [box]
        rw [start_hat, hb, initialize1_eq (fun _ => 1) N (fun i => by simpa using hN i)]
        refine Finset.sum_eq_zero fun l _ => if_neg fun hl => ?_
        have h1 := e3_band (fun _ => 1) N (fun i => by simpa using hN i) l i
        rw [hl] at h1
        change 2 * |waves N i k| < (N i : ℤ) at h1
        have a1 := le_abs_self (waves N i k)
        have a2 := neg_abs_le (waves N i k)
        omega
      simp [dot, at', e]
  · have h8 := h.2.2.1
    have e : get_velocity (rspace N N) (initialize1 N fun _ => 2 * Real.pi) = (start N).U := (start_velocity N hp).symm
    rw [e, gridEnergy] at h8
    rw [kinetic, ← h8]
    ring

/-- C96.  The velocity stays divergence free. -/
theorem C96_solenoidal (hN : ∀ i, 2 < N i) (nu dt : ℝ) (m : ℕ) : Spec.Solenoidal (K N) ((step N nu dt)^[m] (start N)).U_hat := by
  rw [iterate_eq N fun i => by have := hN i; omega]
  refine rk4_iterate_mem (Spec.solenoidal (K N)) _ (fun u hu k => ?_) dt _ (C96_start N hN).1 m
  have h := C01_rhs_divergence (ctx N nu) (fun r u => convVortex ⟨0, 0, 0⟩ r u (rspace N N) (K N)) 0 u k
  have hu' : dot (at' (ctx N nu).K k) (at' u k) = 0 := hu k
  rw [hu'] at h
  show dot (at' (K N) k) (at' (F N nu 0 u) k) = 0
  refine h.trans ?_
  simp [ctx, dot, at']

/-! ## Accuracy -/

theorem energy_form {ι : Type*} [Fintype ι] {d : ℕ} (w : ι → ℝ) (u : SArr d ι) : Spec.energy w u = 1 / 2 * powerForm w u u := by
  rw [powerForm_apply, Spec.energy, Spec.power]
  congr 1
  refine Finset.sum_congr rfl fun i _ => Finset.sum_congr rfl fun k _ => ?_
  rw [← Complex.normSq_eq_conj_mul_self, ofReal_re]

theorem form_diff {E : Type*} [NormedAddCommGroup E] [NormedSpace ℝ E] [FiniteDimensional ℝ E] (β : E →ₗ[ℝ] E →ₗ[ℝ] ℝ) :
    ∃ B : ℝ, 0 ≤ B ∧ ∀ u v, |β u u - β v v| ≤ B * (‖u‖ + ‖v‖) * ‖u - v‖ := by
  refine ⟨‖β.toContinuousBilinearMap‖, ContinuousLinearMap.opNorm_nonneg _, fun u v => ?_⟩
  have e : β u u - β v v = β.toContinuousBilinearMap (u - v) u + β.toContinuousBilinearMap v (u - v) := by
    show _ = β (u - v) u + β v (u - v)
    simp only [map_sub, LinearMap.sub_apply]
    ring
  rw [e]
  refine (abs_add_le _ _).trans ?_
  have h1 := β.toContinuousBilinearMap.le_opNorm₂ (u - v) u
  have h2 := β.toContinuousBilinearMap.le_opNorm₂ v (u - v)
  rw [Real.norm_eq_abs] at h1 h2
  nlinarith

theorem foldl_replicate {E : Type*} (g : ℝ → E → E) (dt : ℝ) (m : ℕ) (u : E) :
    (List.replicate m dt).foldl (fun u d => g d u) u = (g dt)^[m] u := by
  induction m generalizing u with
  | zero => rfl
  | succ m ih => rw [List.replicate_succ, List.foldl_cons, ih, Function.iterate_succ_apply]

/-- C96.  There is exactly one solution of the semi-discrete equations through the start, for all times; it belongs to a real divergence-free field
whose energy starts at 1/8 and decays at the rate `nu` times the dissipation; and on every time interval both the coefficients of the script
and the number `k` follow it with errors of fourth order in `dt`. -/
theorem C96_accuracy (hN : ∀ i, 2 < N i) (nu : ℝ) (hnu : 0 ≤ nu) :
    ∃ U : ℝ → SArr 3 (RModes N), U 0 = (start N).U_hat ∧ Solves (F N nu 0) U ∧
      (∀ t, 0 ≤ t → Spec.Solenoidal (K N) (U t) ∧ Hermitian (Opposite N) (U t)) ∧ Spec.energy (rweight N) (U 0) = 1 / 8 ∧
      (∀ t, 0 < t → HasDerivAt (fun s => Spec.energy (rweight N) (U s)) (-nu * Spec.dissipation (rweight N) (K N) (U t)) t) ∧
      (∀ (T : ℝ) (V : ℝ → SArr 3 (RModes N)), SolvesOn (F N nu 0) T V → V 0 = (start N).U_hat → ∀ t ∈ Set.Icc 0 T, V t = U t) ∧
      ∀ T, 0 ≤ T → ∃ C H0 : ℝ, 0 < H0 ∧ ∀ dt, 0 ≤ dt → dt ≤ H0 → ∀ m : ℕ, m * dt ≤ T →
        ‖((step N nu dt)^[m] (start N)).U_hat - U (m * dt)‖ ≤ C * dt ^ 4 ∧
        |kinetic N ((step N nu dt)^[m] (start N)).U - Spec.energy (rweight N) (U (m * dt))| ≤ C * dt ^ 4 := by
  have hN0 : ∀ i, 0 < N i := fun i => by have := hN i; omega
  have hadj : Adjoint (rweight N) (1 / Fintype.card (Grid N)) (rspace N N).forward (rspace N N).backward := dft_adjoint (kernel (waves N) N) (rweight N)
  have h0s : Spec.Solenoidal (K N) (0 : SArr 3 (RModes N)) := solenoidal_zero _
  have hv : ∀ u : SArr 3 (RModes N), ∀ i, Vanishes (none : Option (RModes N → Bool)) (u i) := fun u i k hk => by simp [keeps] at hk
  obtain ⟨U, hU0, hU, hUs, hUe, hUu⟩ := C92_ns (ctx N nu) (rspace_linear N N) ⟨0, 0, 0⟩ (rweight N) (rweight_pos N) _ hadj hnu h0s (hv 0) "Vortex" convVortex
    (by simp [getConvection]) (fun h => by simp at h) 0 (start N).U_hat (C96_start N hN).1 (hv _)
  have hU : Solves (F N nu 0) U := hU
  have hUu : ∀ (T : ℝ) (V : ℝ → SArr 3 (RModes N)), SolvesOn (F N nu 0) T V → V 0 = (start N).U_hat → ∀ t ∈ Set.Icc 0 T, V t = U t := hUu
  have hq : IsQuad (F N nu 0) := rhsNS_quad (ctx N nu) _ 0 fun i k => conv_quad (rspace_linear N N) (K N) "Vortex" convVortex (by simp [getConvection]) ⟨0, 0, 0⟩ 0 i k
  have hherm : ∀ t, 0 ≤ t → Hermitian (Opposite N) (U t) := by
    have hpow : ∀ u, Spec.Solenoidal (K N) u → Spec.power (rweight N) u (F N nu 0 u) = -nu * Spec.dissipation (rweight N) (K N) u := fun u h1 => by
      have := power_rhs (ctx N nu) (rweight N) (fun r u => convVortex ⟨0, 0, 0⟩ r u (rspace N N) (K N)) 0 u h1 (Vanishes.mask (hv u))
        (power_conv (rspace N N) (rspace_linear N N).additive (K N) (rweight N) _ hadj none "Vortex" convVortex (by simp [getConvection]) (fun h => by simp at h)
          ⟨0, 0, 0⟩ 0 u h1 (hv u))
      refine this.trans ?_
      simp [ctx, Spec.power]
    obtain ⟨V, hV0, hV, hVm⟩ := exists_solves_sub hq (Spec.solenoidal (K N) ⊓ Spec.hermitian (Opposite N))
      (fun u hu => ⟨(mem_admissible.1 (rhsNS_admissible (ctx N nu) (fun r u => convVortex ⟨0, 0, 0⟩ r u (rspace N N) (K N)) 0 h0s (hv 0) u
        (mem_admissible.2 ⟨hu.1, hv u⟩))).1, F_herm N nu u hu.2⟩) (powerForm (rweight N))
      (fun u v => by rw [powerForm_apply, powerForm_apply, power_symm]) (fun u hu => by rw [powerForm_apply]; exact power_self_pos (rweight_pos N) u hu)
      le_rfl 0 (fun u hu => by
        rw [powerForm_apply, hpow u hu.1, zero_mul, map_zero, add_zero]
        have := mul_nonneg hnu (dissipation_nonneg (rweight N) (fun k => (rweight_pos N k).le) (K N) u)
        linarith) (start N).U_hat ⟨(C96_start N hN).1, start_herm N⟩
    intro t ht
    have := hUu t V (hV.on t) hV0 t ⟨ht, le_rfl⟩
    rw [← this]
    exact (hVm t).2
  have hE0 : Spec.energy (rweight N) (U 0) = 1 / 8 := by
    rw [hU0, ← (C96_start N hN).2]
    exact ((C96_real N hN0 nu 0 0).2.2).symm
  refine ⟨U, hU0, hU, fun t ht => ⟨(hUs t).1, hherm t ht⟩, hE0, fun t ht => ?_, hUu, fun T hT => ?_⟩
  · refine (hUe t ht).congr_deriv ?_
    simp [ctx, Spec.power]
  · obtain ⟨C, H0, hH0, hC⟩ := rk_global hq.field rk4_explicit (by norm_num) rk4_order4 hT (hU.on T)
    obtain ⟨R, hR, hUR⟩ := (hU.on T).bound
    obtain ⟨B, hB, hBd⟩ := form_diff (powerForm (d := 3) (rweight N))
    have hmain : ∀ dt, 0 ≤ dt → dt ≤ H0 → ∀ m : ℕ, m * dt ≤ T → ‖((step N nu dt)^[m] (start N)).U_hat - U (m * dt)‖ ≤ C * dt ^ 4 := by
      intro dt hd hdH m hm
      have := hC dt hd hdH (List.replicate m dt) (fun d h => by rw [List.eq_of_mem_replicate h]; exact ⟨hd, le_rfl⟩) (by simpa using hm)
      rw [foldl_replicate (fun d u => Spec.rkNew 4 rk4A rk4w (F N nu 0) d u), hU0] at this
      rw [iterate_eq N hN0]
      have e : (fun u => Spec.rkNew 4 rk4A rk4w (F N nu 0) dt u) = Spec.rk4 (F N nu 0) dt := funext fun u => rkNew_rk4 _ _ _
      rw [e] at this
      simpa using this
    set D := |C| * (1 + B * (2 * R + |C| * H0 ^ 4)) with hD
    have hCD : C ≤ D := by
      have : 0 ≤ |C| * (B * (2 * R + |C| * H0 ^ 4)) := by positivity
      have := le_abs_self C
      rw [hD]; nlinarith
    refine ⟨D, H0, hH0, fun dt hd hdH m hm => ?_⟩
    have h1 := hmain dt hd hdH m hm
    have hd4 : 0 ≤ dt ^ 4 := by positivity
    refine ⟨h1.trans (mul_le_mul_of_nonneg_right hCD hd4), ?_⟩
    have hk := (C96_real N hN0 nu dt m).2.2
    rw [hk, energy_form, energy_form]
    set u := ((step N nu dt)^[m] (start N)).U_hat
    set v := U (m * dt)
    have hvR : ‖v‖ ≤ R := hUR _ ⟨by positivity, hm⟩
    have h2 : ‖u - v‖ ≤ |C| * dt ^ 4 := h1.trans (mul_le_mul_of_nonneg_right (le_abs_self C) hd4)
    have h3 : ‖u - v‖ ≤ |C| * H0 ^ 4 := h2.trans (mul_le_mul_of_nonneg_left (pow_le_pow_left₀ hd hdH 4) (abs_nonneg C))
    have hu : ‖u‖ ≤ R + |C| * H0 ^ 4 := by
      have := norm_add_le (u - v) v
      rw [sub_add_cancel] at this
      linarith
    have h4 := hBd u v
    rw [← mul_sub, abs_mul, abs_of_nonneg (by norm_num : (0 : ℝ) ≤ 1 / 2)]
    have h5 : B * (‖u‖ + ‖v‖) * ‖u - v‖ ≤ B * (2 * R + |C| * H0 ^ 4) * (|C| * dt ^ 4) :=
      mul_le_mul (mul_le_mul_of_nonneg_left (by linarith) hB) h2 (norm_nonneg _) (by positivity)
    have h6 : 0 ≤ |C| * dt ^ 4 := by positivity
    have h7 : 0 ≤ B * (2 * R + |C| * H0 ^ 4) * (|C| * dt ^ 4) := by positivity
    have h8 : D * dt ^ 4 = |C| * dt ^ 4 + B * (2 * R + |C| * H0 ^ 4) * (|C| * dt ^ 4) := by rw [hD]; ring
    linarith

/-- C96.  The whole script: up to every time `T` there is one constant such that, for all steps and all end times `m*dt <= T`, it ends and the
`k` it compares with 0.124953117517 differs from the energy of the solution at the end time by at most the constant times `dt^4`. -/
theorem C96_script (hN : ∀ i, 2 < N i) (nu : ℝ) (hnu : 0 ≤ nu) :
    ∃ U : ℝ → SArr 3 (RModes N), U 0 = initialize1 N (fun _ => 2 * Real.pi) ∧ Solves (F N nu 0) U ∧ Spec.energy (rweight N) (U 0) = 1 / 8 ∧
      ∀ T, 0 ≤ T → ∃ C H0 : ℝ, 0 < H0 ∧ ∀ dt, 1e-8 < dt → dt ≤ H0 → ∀ m : ℕ, m * dt ≤ T → ∀ fuel, m < fuel →
        ∃ k, main N nu dt (m * dt) fuel = some k ∧ |k - Spec.energy (rweight N) (U (m * dt))| ≤ C * dt ^ 4 := by
  obtain ⟨U, h0, h1, -, h2, -, -, h⟩ := C96_accuracy N hN nu hnu
  refine ⟨U, h0, h1, h2, fun T hT => ?_⟩
  obtain ⟨C, H0, hH0, h⟩ := h T hT
  refine ⟨C, H0, hH0, fun dt hd hdH m hm fuel hf => ?_⟩
  obtain ⟨s, hs, rfl, -, -⟩ := C96_lands N (fun i => by have := hN i; omega) nu dt _ hd m rfl fuel hf
  exact ⟨_, by rw [main, hs]; rfl, (h dt ((by norm_num : (0 : ℝ) < 1e-8).trans hd).le hdH m hm).2⟩

/-- The script's own grid, viscosity and end time meet the hypotheses. -/
example : ∃ U : ℝ → SArr 3 (RModes fun _ : Fin 3 => 2 ^ 6), ∃ C H0 : ℝ, 0 < H0 ∧ ∀ m : ℕ, 0.1 / (m : ℝ) ≤ H0 →
    |kinetic (fun _ => 2 ^ 6) ((step (fun _ => 2 ^ 6) 0.000625 (0.1 / m))^[m] (start fun _ => 2 ^ 6)).U - Spec.energy (rweight _) (U 0.1)| ≤
      C * (0.1 / m) ^ 4 ∨ m = 0 := by
  obtain ⟨U, -, -, -, -, -, -, h⟩ := C96_accuracy (fun _ => 2 ^ 6) (fun _ => by norm_num) 0.000625 (by norm_num)
  obtain ⟨C, H0, hH0, h⟩ := h 0.1 (by norm_num)
  refine ⟨U, C, H0, hH0, fun m hm => ?_⟩
  rcases Nat.eq_zero_or_pos m with h0 | h0
  · exact Or.inr h0
  · have hm0 : (m : ℝ) ≠ 0 := by exact_mod_cast h0.ne'
    have e : (m : ℝ) * (0.1 / m) = 0.1 := by field_simp
    have := (h (0.1 / m) (by positivity) hm m e.le).2
    rw [e] at this
    exact Or.inl this

end SpectralDNS.NSShenfun

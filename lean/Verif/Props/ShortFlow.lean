import Verif.Props.Short
import Verif.Props.GlobalSolutions
import Verif.Lemmas.ShortWaves

/-!
# C105: the stand-alone script computes the flow
-/

namespace SpectralDNS.Short

open Complex Periodic Spec

variable {N : ℕ}

theorem leray3_eq {ι : Type*} (K : Fin 3 → ι → ℝ) (v : SArr 3 ι) (i : Fin 3) (k : ι) :
    Spec.leray K v i k = v i k - (∑ j, v j k * (K_over_K2 K j k : ℂ)) * K i k := by
  unfold Spec.leray
  rw [← K2_eq]
  by_cases h : K2 K k = 0
  · rw [if_pos h, (K2_eq_zero K k).1 h i]
    simp
  · have h' : (K2 K k : ℂ) ≠ 0 := by exact_mod_cast h
    rw [if_neg h]
    simp only [K_over_K2, if_neg h, Spec.dot, Spec.at', Fin.sum_univ_three, ofReal_div]
    field_simp

theorem kept_iff (q : ℤ) : Dealias.kept N q = true ↔ 3 * |q| < 2 * (N / 2 + 1 : ℕ) := by
  rw [Dealias.kept, decide_eq_true_iff, Dealias.kmax, div_mul_eq_mul_div, lt_div_iff₀ (by norm_num)]
  constructor
  · intro h
    have : ((|q| * 3 : ℤ) : ℚ) < ((2 * (N / 2 + 1 : ℕ) : ℤ) : ℚ) := by push_cast; push_cast at h; exact h
    have := Int.cast_lt.1 this
    omega
  · intro h
    have : ((|q| * 3 : ℤ) : ℚ) < ((2 * (N / 2 + 1 : ℕ) : ℤ) : ℚ) := Int.cast_lt.2 (by omega)
    push_cast at this ⊢
    exact this

theorem dealias_iff (q : Fin 3 → ℤ) : Dealias.dealias N q = true ↔ Script.Kept N q := by
  simp only [Dealias.dealias, Bool.and_eq_true, kept_iff, Script.Kept, Fin.forall_fin_succ, Fin.forall_fin_zero_pi]
  simp [and_assoc]

/-- The right-hand side of the script is that of the truncated Navier-Stokes equations. -/
theorem rhs_navierStokes (nu dt : ℝ) (u : SArr 3 (Modes N)) :
    rhs (setup N nu dt) ((serial N).vbackward u) u = Script.navierStokes N nu (waves N) u := by
  have h := C60_rhs (setup N nu dt) convVortex (by simp [getConvection]) ⟨0, 0, 0⟩ 0 u
  refine h.trans ?_
  funext i k
  simp only [rhsNS, ComputeRHS, add_pressure_diffusion, convVortex_eq, maskNyquist_keeps, Script.navierStokes]
  rw [leray3_eq]
  have hb : (setup N nu dt).T.backward = Script.values N (waves N) := funext serial_backward
  have hf : (setup N nu dt).T.forward = Script.coeffs N (waves N) := funext serial_forward
  have hk : keeps (some (setup N nu dt).dealias) k = true ↔ Script.Kept N (waves N k) := dealias_iff (waves N k)
  have hif : ∀ z : ℂ, (if keeps (some (setup N nu dt).dealias) k = true then z else 0) = open Classical in if Script.Kept N (waves N k) then z else 0 := by
    intro z
    by_cases h : Script.Kept N (waves N k)
    · rw [if_pos h, if_pos (hk.2 h)]
    · rw [if_neg h, if_neg fun h' => h (hk.1 h')]
  simp only [ctx, hif, hb, hf, Pi.zero_apply, add_zero, K2, ← pow_two]
  rfl

theorem kinetic_eq (U : PArr 3 (Points N)) : kinetic N U = Script.meanEnergy N U := by
  unfold kinetic Script.meanEnergy
  rw [← Finset.sum_div]
  simp only [pow_two (U _ _)]
  ring

theorem foldl_replicate {E : Type*} (g : E → ℝ → E) (d : ℝ) (m : ℕ) (u : E) : (List.replicate m d).foldl g u = (fun u => g u d)^[m] u := by
  induction m generalizing u with
  | zero => rfl
  | succ m ih => rw [List.replicate_succ, List.foldl_cons, ih, Function.iterate_succ_apply]

theorem navierStokes_rhs (nu : ℝ) (r : SArr 3 (Modes N)) :
    rhsNS (ctx (setup N nu 0)) (fun r u => convVortex ⟨0, 0, 0⟩ r u (serial N) (setup N nu 0).K) r = Script.navierStokes N nu (waves N) := by
  funext u
  rw [← rhs_navierStokes nu 0 u]
  exact (C60_rhs (setup N nu 0) convVortex (by simp [getConvection]) ⟨0, 0, 0⟩ r u).symm

/-- The velocity and the kinetic energy depend continuously on the coefficients. -/
theorem values_bound (N : ℕ) : ∃ M : ℝ, 0 ≤ M ∧ ∀ (u v : SArr 3 (Modes N)) i x,
    |Script.values N (waves N) (u i) x - Script.values N (waves N) (v i) x| ≤ M * ‖u - v‖ := by
  obtain ⟨A, hA⟩ := (serial_linear N).2
  refine ⟨‖LinearMap.toContinuousLinearMap A‖, norm_nonneg _, fun u v i x => ?_⟩
  rw [← serial_backward, ← serial_backward, hA, hA, ← Pi.sub_apply, ← map_sub, ← Real.norm_eq_abs]
  calc _ ≤ ‖A (u i - v i)‖ := norm_le_pi_norm (A (u i - v i)) x
    _ = ‖LinearMap.toContinuousLinearMap A (u i - v i)‖ := rfl
    _ ≤ ‖LinearMap.toContinuousLinearMap A‖ * ‖u i - v i‖ := ContinuousLinearMap.le_opNorm _ _
    _ ≤ _ := mul_le_mul_of_nonneg_left (norm_le_pi_norm (u - v) i) (norm_nonneg _)

theorem energy_bound (N : ℕ) (U V : PArr 3 (Points N)) (R e : ℝ) (he : ∀ i x, |U i x - V i x| ≤ e) (hU : ∀ i x, |U i x| ≤ R)
    (hV : ∀ i x, |V i x| ≤ R) (h0 : 0 ≤ R * e) : |Script.meanEnergy N U - Script.meanEnergy N V| ≤ 3 * R * e := by
  have h1 : ∀ i x, |U i x ^ 2 - V i x ^ 2| ≤ 2 * (R * e) := by
    intro i x
    rw [sq_sub_sq, abs_mul]
    have a1 := he i x
    have a2 : |U i x + V i x| ≤ 2 * R := (abs_add_le _ _).trans (by linarith [hU i x, hV i x])
    calc |U i x + V i x| * |U i x - V i x| ≤ 2 * R * e := mul_le_mul a2 a1 (abs_nonneg _) ((abs_nonneg _).trans a2)
      _ = _ := by ring
  have h2 : ∀ i, |(∑ x, U i x ^ 2) / (N : ℝ) ^ 3 - (∑ x, V i x ^ 2) / (N : ℝ) ^ 3| ≤ 2 * (R * e) := by
    intro i
    rw [← sub_div, ← Finset.sum_sub_distrib, abs_div, abs_of_nonneg (by positivity : (0 : ℝ) ≤ (N : ℝ) ^ 3)]
    refine div_le_of_le_mul₀ (by positivity) (by linarith) ?_
    calc _ ≤ ∑ x : Points N, |U i x ^ 2 - V i x ^ 2| := Finset.abs_sum_le_sum_abs _ _
      _ ≤ ∑ _x : Points N, 2 * (R * e) := Finset.sum_le_sum fun x _ => h1 i x
      _ = _ := by
        rw [Finset.sum_const, Finset.card_univ, nsmul_eq_mul]
        simp only [Fintype.card_prod, Fintype.card_fin]
        push_cast
        ring
  unfold Script.meanEnergy
  rw [← mul_sub, ← Finset.sum_sub_distrib, abs_mul, abs_of_pos (by norm_num : (0 : ℝ) < 1 / 2)]
  have := Finset.abs_sum_le_sum_abs (fun i : Fin 3 => (∑ x, U i x ^ 2) / (N : ℝ) ^ 3 - (∑ x, V i x ^ 2) / (N : ℝ) ^ 3) Finset.univ
  rw [Fin.sum_univ_three (fun i => |_|)] at this
  linarith [h2 0, h2 1, h2 2]

/-- C105.  For every even grid size, every viscosity and every initial velocity that is divergence free and has no modes beyond the 2/3-rule there is
exactly one solution of the truncated Navier-Stokes equations for all times; it stays divergence free and truncated, and its energy decays by
dissipation alone; and on every time interval the coefficients, the velocity and the energy printed by the script differ from those of the
solution, after every number of steps, by at most a constant times `dt^4`. -/
theorem C105_flow (N : ℕ) (he : Even N) (hN : 0 < N) (nu : ℝ) (hnu : 0 ≤ nu) (U : PArr 3 (Points N))
    (h0 : Solenoidal (fun i k => (waves N k i : ℝ)) fun i => Script.coeffs N (waves N) (U i))
    (hm : ∀ i k, ¬ Script.Kept N (waves N k) → Script.coeffs N (waves N) (U i) k = 0) :
    ∃ Y : ℝ → SArr 3 (Modes N), Script.values N (waves N) ∘ Y 0 = U ∧ Y 0 = (fun i => Script.coeffs N (waves N) (U i)) ∧
      Solves (Script.navierStokes N nu (waves N)) Y ∧
      (∀ t, Solenoidal (fun i k => (waves N k i : ℝ)) (Y t) ∧ ∀ i k, ¬ Script.Kept N (waves N k) → Y t i k = 0) ∧
      (∀ t, 0 < t → HasDerivAt (fun s => energy (fun k => Script.multiplicity N (waves N k)) (Y s))
        (-nu * dissipation (fun k => Script.multiplicity N (waves N k)) (fun i k => (waves N k i : ℝ)) (Y t)) t) ∧
      (∀ T V, SolvesOn (Script.navierStokes N nu (waves N)) T V → V 0 = Y 0 → ∀ t ∈ Set.Icc 0 T, V t = Y t) ∧
      ∀ T, 0 ≤ T → ∃ C H0 : ℝ, 0 < H0 ∧ ∀ dt, 0 ≤ dt → dt ≤ H0 → ∀ m : ℕ, m * dt ≤ T →
        (∀ i k, ‖(run (setup N nu dt) U m).U_hat i k - Y (m * dt) i k‖ ≤ C * dt ^ 4) ∧
        (∀ i x, |(run (setup N nu dt) U m).U i x - Script.values N (waves N) (Y (m * dt) i) x| ≤ C * dt ^ 4) ∧
        |kinetic N (run (setup N nu dt) U m).U - Script.meanEnergy N fun i => Script.values N (waves N) (Y (m * dt) i)| ≤ C * dt ^ 4 := by
  have hmask : ∀ u : SArr 3 (Modes N), (∀ i, Vanishes (ctx (setup N nu 0)).mask (u i)) ↔ ∀ i k, ¬ Script.Kept N (waves N k) → u i k = 0 := by
    intro u
    refine forall_congr' fun i => forall_congr' fun k => ?_
    have : keeps (ctx (setup N nu 0)).mask k = false ↔ ¬ Script.Kept N (waves N k) := by
      rw [← Bool.not_eq_true]
      exact not_congr (dealias_iff (waves N k))
    rw [this]
  obtain ⟨Y, hY0, hY, hYa, hYe, hYu⟩ := C92_ns (ctx (setup N nu 0)) (serial_linear N) ⟨0, 0, 0⟩ (fun k => Script.multiplicity N (waves N k))
    (fun k => mult_pos _) ((N : ℝ) ^ 3) (serial_adjoint N hN) hnu (by intro k; simp [ctx, Spec.dot, Spec.at'])
    ((hmask 0).2 (by simp)) "Vortex" convVortex (by simp [getConvection]) (by simp) 0 (fun i => Script.coeffs N (waves N) (U i)) h0
    ((hmask _).2 hm)
  have hrhs := navierStokes_rhs (N := N) nu 0
  have hback : Script.values N (waves N) ∘ Y 0 = U := by
    rw [hY0]
    funext i
    show Script.values N (waves N) (Script.coeffs N (waves N) (U i)) = U i
    rw [← serial_backward, ← serial_forward]
    exact serial_inverse N he (U i)
  have hS : Solves (Script.navierStokes N nu (waves N)) Y := by rw [← hrhs]; exact hY
  refine ⟨Y, hback, hY0, hS, fun t => ⟨(hYa t).1, (hmask _).1 (hYa t).2⟩, fun t ht => ?_, fun T V hV hV0 => ?_, fun T hT => ?_⟩
  · have := hYe t ht
    have hz : power (fun k => Script.multiplicity N (waves N k)) (Y t) (ctx (setup N nu 0)).Source = 0 := by simp [power, ctx]
    rw [hz, add_zero] at this
    exact this
  · rw [← hrhs] at hV
    exact hYu T V hV (hV0.trans hY0)
  · have hq : IsQuad (Script.navierStokes N nu (waves N)) := by
      rw [← hrhs]
      exact rhsNS_quad (ctx (setup N nu 0)) _ 0 fun i k => conv_quad (serial_linear N) _ "Vortex" convVortex (by simp [getConvection]) ⟨0, 0, 0⟩ 0 i k
    obtain ⟨C, H0, hH0, hC⟩ := rk_global hq.field rk4_explicit (by norm_num : 1 ≤ 4) rk4_order4 hT (hS.on T)
    obtain ⟨M, hM0, hM⟩ := values_bound N
    obtain ⟨R, hR, hyR⟩ := (hS.on T).bound
    have hrun : ∀ dt (m : ℕ), (run (setup N nu dt) U m).U_hat = (List.replicate m dt).foldl (fun u d => Spec.rkNew 4 rk4A rk4w (Script.navierStokes N nu (waves N)) d u) (Y 0) ∧
        (run (setup N nu dt) U m).U = fun i => Script.values N (waves N) ((run (setup N nu dt) U m).U_hat i) := by
      intro dt m
      have hfun : (fun u => rhs (setup N nu dt) ((setup N nu dt).T.vbackward u) u) = Script.navierStokes N nu (waves N) :=
        funext fun u => rhs_navierStokes nu dt u
      rw [run_eq _ U (C60_start N he nu dt U) m, hfun, foldl_replicate]
      constructor
      · simp only [rkNew_rk4]
        rw [hY0]
        congr 1
        funext i
        exact serial_forward (U i)
      · funext i
        exact serial_backward _
    have hz : ∀ x, Script.values N (waves N) (0 : Modes N → ℂ) x = 0 := fun x => by simp [Script.values]
    have hM' : ∀ (u : SArr 3 (Modes N)) i x, |Script.values N (waves N) (u i) x| ≤ M * ‖u‖ := fun u i x => by
      have := hM u 0 i x
      rwa [Pi.zero_apply, hz, sub_zero, sub_zero] at this
    set R2 := M * (R + |C| * H0 ^ 4) with hR2
    have hR20 : 0 ≤ R2 := by positivity
    refine ⟨|C| + M * |C| + 3 * R2 * (M * |C|), H0, hH0, fun dt hdt0 hdt m hmT => ?_⟩
    obtain ⟨hr1, hr2⟩ := hrun dt m
    have herr : ‖(run (setup N nu dt) U m).U_hat - Y (m * dt)‖ ≤ |C| * dt ^ 4 := by
      have := hC dt hdt0 hdt (List.replicate m dt) (fun d hd => by rw [List.eq_of_mem_replicate hd]; exact ⟨hdt0, le_rfl⟩)
        (by rw [List.sum_replicate, nsmul_eq_mul]; exact hmT)
      rw [List.sum_replicate, nsmul_eq_mul, ← hr1] at this
      exact this.trans (mul_le_mul_of_nonneg_right (le_abs_self C) (by positivity))
    have hd4 : dt ^ 4 ≤ H0 ^ 4 := pow_le_pow_left₀ hdt0 hdt 4
    have hY1 : ‖Y (m * dt)‖ ≤ R := hyR _ ⟨by positivity, hmT⟩
    have hU1 : ‖(run (setup N nu dt) U m).U_hat‖ ≤ R + |C| * H0 ^ 4 := by
      have h1 : ‖(run (setup N nu dt) U m).U_hat‖ ≤ ‖(run (setup N nu dt) U m).U_hat - Y (m * dt)‖ + ‖Y (m * dt)‖ := norm_le_norm_sub_add _ _
      have h2 : |C| * dt ^ 4 ≤ |C| * H0 ^ 4 := mul_le_mul_of_nonneg_left hd4 (abs_nonneg C)
      linarith
    have hvel : ∀ i x, |(run (setup N nu dt) U m).U i x - Script.values N (waves N) (Y (m * dt) i) x| ≤ M * |C| * dt ^ 4 := by
      intro i x
      rw [hr2]
      refine (hM _ _ i x).trans ?_
      rw [mul_assoc]
      exact mul_le_mul_of_nonneg_left herr hM0
    have c1 : 0 ≤ |C| * dt ^ 4 := by positivity
    have c2 : 0 ≤ M * |C| * dt ^ 4 := by positivity
    have c3 : 0 ≤ 3 * R2 * (M * |C|) * dt ^ 4 := by positivity
    refine ⟨fun i k => ?_, fun i x => (hvel i x).trans (by linarith), ?_⟩
    · have h1 : ‖((run (setup N nu dt) U m).U_hat - Y (m * dt)) i k‖ ≤ ‖(run (setup N nu dt) U m).U_hat - Y (m * dt)‖ :=
        (norm_le_pi_norm (((run (setup N nu dt) U m).U_hat - Y (m * dt)) i) k).trans (norm_le_pi_norm _ i)
      exact h1.trans (by linarith)
    · rw [kinetic_eq]
      have h1 := energy_bound N (run (setup N nu dt) U m).U (fun i => Script.values N (waves N) (Y (m * dt) i)) R2 (M * |C| * dt ^ 4) hvel
        (fun i x => by
          rw [hr2]
          exact (hM' _ i x).trans (mul_le_mul_of_nonneg_left hU1 hM0))
        (fun i x => (hM' _ i x).trans (mul_le_mul_of_nonneg_left (hY1.trans (by
          have : 0 ≤ |C| * H0 ^ 4 := by positivity
          linarith)) hM0)) (by positivity)
      exact h1.trans (by linarith)

theorem parseval_le (N : ℕ) (he : Even N) (hN : 0 < N) (Y : SArr 3 (Modes N)) :
    (N : ℝ) ^ 6 * Script.meanEnergy N (fun i => Script.values N (waves N) (Y i)) ≤ energy (fun k => Script.multiplicity N (waves N k)) Y := by
  have hadj := serial_adjoint N hN
  have hN' : (N : ℝ) ≠ 0 := by exact_mod_cast hN.ne'
  have key : ∀ a : Modes N → ℂ, (N : ℝ) ^ 3 * ∑ x, Script.values N (waves N) a x ^ 2 ≤ ∑ k, Script.multiplicity N (waves N k) * Complex.normSq (a k) := by
    intro a
    set g := Script.values N (waves N) a with hg
    have h1 := hadj a g
    rw [serial_backward, ← hg] at h1
    have h2 := hadj ((serial N).forward g) g
    rw [serial_inverse N he g] at h2
    have h3 : ∀ k, Script.multiplicity N (waves N k) * ((starRingEnd ℂ) (a k) * (serial N).forward g k).re ≤
        (Script.multiplicity N (waves N k) * Complex.normSq (a k) +
          Script.multiplicity N (waves N k) * ((starRingEnd ℂ) ((serial N).forward g k) * (serial N).forward g k).re) / 2 := by
      intro k
      have hw := (mult_pos (N := N) (waves N k)).le
      have : ((starRingEnd ℂ) (a k) * (serial N).forward g k).re ≤
          (Complex.normSq (a k) + ((starRingEnd ℂ) ((serial N).forward g k) * (serial N).forward g k).re) / 2 := by
        simp only [Complex.normSq_apply, Complex.mul_re, Complex.conj_re, Complex.conj_im]
        nlinarith [sq_nonneg ((a k).re - ((serial N).forward g k).re), sq_nonneg ((a k).im - ((serial N).forward g k).im)]
      calc _ ≤ Script.multiplicity N (waves N k) * ((Complex.normSq (a k) + ((starRingEnd ℂ) ((serial N).forward g k) * (serial N).forward g k).re) / 2) :=
            mul_le_mul_of_nonneg_left this hw
        _ = _ := by ring
    have h4 := Finset.sum_le_sum fun k (_ : k ∈ Finset.univ) => h3 k
    rw [← Finset.sum_div, Finset.sum_add_distrib, h1, h2] at h4
    simp only [pow_two]
    linarith
  unfold Script.meanEnergy energy
  have h := Finset.sum_le_sum fun i (_ : i ∈ Finset.univ) => key (Y i)
  have e : (N : ℝ) ^ 6 * (1 / 2 * ∑ i, (∑ x, Script.values N (waves N) (Y i) x ^ 2) / (N : ℝ) ^ 3) =
      1 / 2 * ∑ i, (N : ℝ) ^ 3 * ∑ x, Script.values N (waves N) (Y i) x ^ 2 := by
    rw [← Finset.sum_div, ← Finset.mul_sum]
    field_simp
  rw [e]
  linarith

theorem parseval_eq (N : ℕ) (he : Even N) (hN : 0 < N) (U : PArr 3 (Points N)) :
    energy (fun k => Script.multiplicity N (waves N k)) (fun i => Script.coeffs N (waves N) (U i)) = (N : ℝ) ^ 6 * Script.meanEnergy N U := by
  have hadj := serial_adjoint N hN
  have hN' : (N : ℝ) ≠ 0 := by exact_mod_cast hN.ne'
  have key : ∀ g : Points N → ℝ, ∑ k, Script.multiplicity N (waves N k) * Complex.normSq (Script.coeffs N (waves N) g k) = (N : ℝ) ^ 3 * ∑ x, g x ^ 2 := by
    intro g
    have h2 := hadj ((serial N).forward g) g
    rw [serial_inverse N he g, serial_forward] at h2
    simp only [pow_two (g _), ← h2]
    exact Finset.sum_congr rfl fun k _ => by rw [← Complex.normSq_eq_conj_mul_self, Complex.ofReal_re]
  unfold energy Script.meanEnergy
  simp only [key]
  rw [← Finset.sum_div, ← Finset.mul_sum]
  field_simp

/-- C105.  The energy printed by the script exceeds that of the initial velocity by no more than a constant times `dt^4`. -/
theorem C105_energy (N : ℕ) (he : Even N) (hN : 0 < N) (nu : ℝ) (hnu : 0 ≤ nu) (U : PArr 3 (Points N))
    (h0 : Solenoidal (fun i k => (waves N k i : ℝ)) fun i => Script.coeffs N (waves N) (U i))
    (hm : ∀ i k, ¬ Script.Kept N (waves N k) → Script.coeffs N (waves N) (U i) k = 0) (T : ℝ) (hT : 0 ≤ T) :
    ∃ C H0 : ℝ, 0 < H0 ∧ ∀ dt, 0 ≤ dt → dt ≤ H0 → ∀ m : ℕ, m * dt ≤ T →
      kinetic N (run (setup N nu dt) U m).U ≤ Script.meanEnergy N U + C * dt ^ 4 := by
  obtain ⟨Y, -, hY0, hS, -, hE, -, hC⟩ := C105_flow N he hN nu hnu U h0 hm
  obtain ⟨C, H0, hH0, h⟩ := hC T hT
  refine ⟨C, H0, hH0, fun dt a b m c => ?_⟩
  have h1 := (abs_le.1 (h dt a b m c).2.2).2
  have hcont : ContinuousOn (fun s => energy (fun k => Script.multiplicity N (waves N k)) (Y s)) (Set.Ici 0) := by
    have hYc : ContinuousOn Y (Set.Ici 0) := fun t ht => (hS t ht).continuousWithinAt
    have : Continuous fun u : SArr 3 (Modes N) => energy (fun k => Script.multiplicity N (waves N k)) u := by
      unfold energy
      refine continuous_const.mul (continuous_finsetSum _ fun i _ => continuous_finsetSum _ fun k _ => continuous_const.mul ?_)
      exact Complex.continuous_normSq.comp ((continuous_apply k).comp (continuous_apply i))
    exact this.comp_continuousOn hYc
  have hanti : AntitoneOn (fun s => energy (fun k => Script.multiplicity N (waves N k)) (Y s)) (Set.Ici 0) := by
    refine antitoneOn_of_deriv_nonpos (convex_Ici 0) hcont (fun t ht => ?_) fun t ht => ?_
    · rw [interior_Ici] at ht
      exact (hE t ht).differentiableAt.differentiableWithinAt
    · rw [interior_Ici] at ht
      rw [(hE t ht).deriv]
      have := mul_nonneg hnu (dissipation_nonneg (fun k => Script.multiplicity N (waves N k)) (fun k => (mult_pos _).le) (fun i k => (waves N k i : ℝ)) (Y t))
      linarith
  have h2 := hanti (Set.mem_Ici.2 le_rfl) (Set.mem_Ici.2 (by positivity : 0 ≤ (m : ℝ) * dt)) (by positivity)
  have h3 := parseval_le N he hN (Y (m * dt))
  simp only at h2
  rw [hY0, parseval_eq N he hN U] at h2
  have hN6 : (0 : ℝ) < (N : ℝ) ^ 6 := by positivity
  have h4 := le_of_mul_le_mul_left (h3.trans h2) hN6
  linarith

theorem waves_range (he : Even N) (k : Modes N) (i : Fin 3) : -(N : ℤ) ≤ 2 * waves N k i ∧ 2 * waves N k i ≤ N := by
  obtain ⟨m, hm⟩ := he
  fin_cases i
  · have := C54_wavenumbers N k.1
    exact ⟨this.2.1, this.2.2.le⟩
  · have := C54_wavenumbers N k.2.1
    exact ⟨this.2.1, this.2.2.le⟩
  · have := k.2.2.isLt
    simp only [waves, freqz]
    omega

/-- C105.  The script's own start is the Taylor-Green vortex. -/
theorem C105_initial (N : ℕ) (i : Fin 3) (x : Points N) : initial N i x = Script.taylorGreen (Script.point N x) i := by
  have h : ∀ a : ℕ, (a : ℝ) * 2 * Real.pi / N = 2 * Real.pi * a / N := fun a => by ring
  fin_cases i <;> simp [initial, mesh, Script.taylorGreen, Script.point, h]

theorem initial_prod (N : ℕ) : (initial N 0 = fun x => sg N x.1 * cg N x.2.1 * cg N x.2.2) ∧
    (initial N 1 = fun x => (-cg N x.1) * sg N x.2.1 * cg N x.2.2) ∧ initial N 2 = 0 := ⟨rfl, rfl, rfl⟩

/-- C105.  It is divergence free, lies within the 2/3-rule, and has mean kinetic energy `1/8`, on every even grid of at least four points. -/
theorem C105_start (N : ℕ) (he : Even N) (hN : 4 ≤ N) :
    Solenoidal (fun i k => (waves N k i : ℝ)) (fun i => Script.coeffs N (waves N) (initial N i)) ∧
    (∀ i k, ¬ Script.Kept N (waves N k) → Script.coeffs N (waves N) (initial N i) k = 0) ∧ kinetic N (initial N) = 1 / 8 := by
  have g := fun (k : Modes N) i => grid_sums (by omega : 3 ≤ N) (waves N k i) (waves_range he k i).1 (waves_range he k i).2
  generalize hS : (fun (k : Modes N) (i : Fin 3) => ∑ x : Fin N, (sg N x : ℂ) * root N (-waves N k i * (x : ℕ))) = S
  generalize hC : (fun (k : Modes N) (i : Fin 3) => ∑ x : Fin N, (cg N x : ℂ) * root N (-waves N k i * (x : ℕ))) = C
  have hS' : ∀ k i, ∑ x : Fin N, (sg N x : ℂ) * root N (-waves N k i * (x : ℕ)) = S k i := fun k i => congrFun (congrFun hS k) i
  have hC' : ∀ k i, ∑ x : Fin N, (cg N x : ℂ) * root N (-waves N k i * (x : ℕ)) = C k i := fun k i => congrFun (congrFun hC k) i
  simp only [hS', hC'] at g
  have hneg : ∀ p : ℤ, ∑ x : Fin N, ((-cg N x : ℝ) : ℂ) * root N (-p * (x : ℕ)) = -∑ x : Fin N, (cg N x : ℂ) * root N (-p * (x : ℕ)) := fun p => by
    rw [← Finset.sum_neg_distrib]
    exact Finset.sum_congr rfl fun x _ => by push_cast; ring
  have c0 : ∀ k, Script.coeffs N (waves N) (initial N 0) k = S k 0 * C k 1 * C k 2 := fun k => by
    rw [(initial_prod N).1, ← hS', ← hC', ← hC']
    exact coeffs_prod (waves N k) (sg N) (cg N) (cg N)
  have c1 : ∀ k, Script.coeffs N (waves N) (initial N 1) k = -C k 0 * S k 1 * C k 2 := fun k => by
    rw [(initial_prod N).2.1, ← hS', ← hC', ← hC', ← hneg]
    exact coeffs_prod (waves N k) (fun x => -cg N x) (sg N) (cg N)
  have c2 : ∀ k, Script.coeffs N (waves N) (initial N 2) k = 0 := fun k => by simp [(initial_prod N).2.2, Script.coeffs]
  refine ⟨fun k => ?_, fun i k hk => ?_, ?_⟩
  · simp only [Spec.dot, Spec.at', Fin.sum_univ_three, c0, c1, c2]
    have g0 := (g k 0).1
    have g1 := (g k 1).1
    push_cast
    linear_combination (C k 1 * C k 2) * g0 - (C k 0 * C k 2) * g1
  · have : ∃ j, |waves N k j| ≠ 1 := by
      by_contra h
      push Not at h
      refine hk fun j => ?_
      rw [h j]
      omega
    obtain ⟨j, hj⟩ := this
    have h1 := (g k j).2 hj
    fin_cases i
    · refine (c0 k).trans ?_
      fin_cases j <;> simp at h1 <;> simp [h1]
    · refine (c1 k).trans ?_
      fin_cases j <;> simp at h1 <;> simp [h1]
    · exact c2 k
  · have hN' : (N : ℝ) ≠ 0 := by
      have : N ≠ 0 := by omega
      exact_mod_cast this
    have hp : ∀ a b c : Fin N → ℝ, ∑ x : Points N, (a x.1 * b x.2.1 * c x.2.2) * (a x.1 * b x.2.1 * c x.2.2) =
        (∑ x, a x ^ 2) * ((∑ x, b x ^ 2) * ∑ x, c x ^ 2) := by
      intro a b c
      rw [Finset.sum_mul_sum, Finset.sum_mul_sum]
      simp only [Fintype.sum_prod_type, Finset.mul_sum]
      exact Finset.sum_congr rfl fun x _ => Finset.sum_congr rfl fun y _ => Finset.sum_congr rfl fun z _ => by ring
    obtain ⟨q1, q2⟩ := sum_sq (by omega : 3 ≤ N)
    rw [kinetic, Fin.sum_univ_three, (initial_prod N).1, (initial_prod N).2.1, (initial_prod N).2.2, hp,
      hp (fun x => -cg N x) (sg N) (cg N)]
    simp only [neg_sq, q1, q2, Pi.zero_apply, mul_zero, Finset.sum_const_zero, add_zero]
    field_simp
    norm_num

/-- C105.  With a positive step the loop ends after `ceil((T-1e-8)/dt)` passes. -/
theorem C105_ends {ι X : Type*} (s : Setup ι X) (U : PArr 3 X) (T : ℝ) (hdt : 0 < s.dt) (fuel : ℕ) (hf : ⌈(T - 1e-8) / s.dt⌉₊ < fuel) :
    script s U T fuel = some (⌈(T - 1e-8) / s.dt⌉₊ * s.dt, ⌈(T - 1e-8) / s.dt⌉₊, run s U ⌈(T - 1e-8) / s.dt⌉₊) := by
  set M := ⌈(T - 1e-8) / s.dt⌉₊ with hM
  have key : ∀ (j m fuel : ℕ), m + j = M → j < fuel → loop s T fuel (m * s.dt, m, run s U m) = some (M * s.dt, M, run s U M) := by
    intro j
    induction j with
    | zero =>
      intro m fuel hm hf
      obtain ⟨fuel, rfl⟩ := Nat.exists_eq_succ_of_ne_zero (by omega : fuel ≠ 0)
      rw [loop, if_neg, ← hm, add_zero]
      rw [not_lt, ← div_le_iff₀ hdt]
      exact Nat.ceil_le.1 (by omega)
    | succ j ih =>
      intro m fuel hm hf
      obtain ⟨fuel, rfl⟩ := Nat.exists_eq_succ_of_ne_zero (by omega : fuel ≠ 0)
      rw [loop, if_pos]
      · have := ih (m + 1) fuel (by omega) (by omega)
        rw [run_succ, show ((m + 1 : ℕ) : ℝ) * s.dt = m * s.dt + s.dt by push_cast; ring] at this
        exact this
      · rw [← lt_div_iff₀ hdt]
        exact Nat.lt_ceil.1 (by omega)
  have := key M 0 fuel (by omega) hf
  rw [Nat.cast_zero, zero_mul] at this
  exact this

/-- C105.  If `T` is `m` steps, exactly `m` passes are made and the clock shows `T`. -/
theorem C105_lands {ι X : Type*} (s : Setup ι X) (U : PArr 3 X) (T : ℝ) (hdt : 1e-8 < s.dt) (m : ℕ) (he : T = m * s.dt) (fuel : ℕ) (hf : m < fuel) :
    script s U T fuel = some (T, m, run s U m) := by
  have h0 : (0 : ℝ) < 1e-8 := by norm_num
  have hd : 0 < s.dt := h0.trans hdt
  have hc : ⌈(T - 1e-8) / s.dt⌉₊ = m := by
    have e : (T - 1e-8) / s.dt = m - 1e-8 / s.dt := by rw [he]; field_simp
    have h1 : 1e-8 / s.dt < 1 := (div_lt_one hd).2 hdt
    have h2 : 0 < 1e-8 / s.dt := div_pos h0 hd
    rw [e]
    rcases Nat.eq_zero_or_pos m with rfl | hm
    · rw [Nat.ceil_eq_zero]; push_cast; linarith
    · rw [Nat.ceil_eq_iff (by omega)]
      have : ((m - 1 : ℕ) : ℝ) = m - 1 := by rw [Nat.cast_sub hm]; simp
      rw [this]
      constructor <;> linarith
  have := C105_ends s U T hd fuel (by rw [hc]; exact hf)
  rw [hc, ← he] at this
  exact this

/-- C105.  The script as it stands, with any even grid, any viscosity `>= 0`: for small steps it ends less than a step after `T-1e-8`; the velocity it
leaves and the energy it prints are those of the Taylor-Green flow at the time it ends, up to an error of fourth order in the step; and the energy
does not exceed the initial `1/8` by more than that. -/
theorem C105_script (N : ℕ) (he : Even N) (hN : 4 ≤ N) (nu : ℝ) (hnu : 0 ≤ nu) :
    ∃ Y : ℝ → SArr 3 (Modes N), (∀ i x, Script.values N (waves N) (Y 0 i) x = Script.taylorGreen (Script.point N x) i) ∧
      Solves (Script.navierStokes N nu (waves N)) Y ∧
      ∀ T, 1e-8 < T → ∃ C H0 : ℝ, 0 < H0 ∧ ∀ dt, 0 < dt → dt ≤ H0 → ∃ n : ℕ, ∀ fuel, n < fuel → ∃ t st,
        script (setup N nu dt) (initial N) T fuel = some (t, n, st) ∧ t = n * dt ∧ T - 1e-8 ≤ t ∧ t < T - 1e-8 + dt ∧
        (∀ i x, |st.U i x - Script.values N (waves N) (Y t i) x| ≤ C * dt ^ 4) ∧
        |kinetic N st.U - Script.meanEnergy N fun i => Script.values N (waves N) (Y t i)| ≤ C * dt ^ 4 ∧
        kinetic N st.U ≤ 1 / 8 + C * dt ^ 4 := by
  obtain ⟨h1, h2, h3⟩ := C105_start N he hN
  obtain ⟨Y, hY, -, hS, -, -, -, hE⟩ := C105_flow N he (by omega) nu hnu (initial N) h1 h2
  refine ⟨Y, fun i x => ?_, hS, fun T hT => ?_⟩
  · rw [← C105_initial]
    exact congrFun (congrFun hY i) x
  · have h0 : (0 : ℝ) < 1e-8 := by norm_num
    obtain ⟨C, H0, hH0, h⟩ := hE (T + 1) (by linarith)
    obtain ⟨C', H0', hH0', h'⟩ := C105_energy N he (by omega) nu hnu (initial N) h1 h2 (T + 1) (by linarith)
    refine ⟨max C C', min 1 (min H0 H0'), lt_min one_pos (lt_min hH0 hH0'), fun dt a b => ⟨⌈(T - 1e-8) / dt⌉₊, fun fuel hf => ?_⟩⟩
    refine ⟨_, _, C105_ends (setup N nu dt) (initial N) T a fuel hf, rfl, ?_, ?_, ?_⟩
    · show T - 1e-8 ≤ ⌈(T - 1e-8) / dt⌉₊ * dt
      rw [← div_le_iff₀ a]
      exact Nat.le_ceil _
    · show ⌈(T - 1e-8) / dt⌉₊ * dt < T - 1e-8 + dt
      have := Nat.ceil_lt_add_one (div_nonneg (by linarith : 0 ≤ T - 1e-8) a.le)
      calc (⌈(T - 1e-8) / dt⌉₊ : ℝ) * dt < ((T - 1e-8) / dt + 1) * dt := mul_lt_mul_of_pos_right this a
        _ = _ := by field_simp
    · show (∀ i x, |(run (setup N nu dt) (initial N) ⌈(T - 1e-8) / dt⌉₊).U i x - Script.values N (waves N) (Y (⌈(T - 1e-8) / dt⌉₊ * dt) i) x| ≤ max C C' * dt ^ 4) ∧
        |kinetic N (run (setup N nu dt) (initial N) ⌈(T - 1e-8) / dt⌉₊).U - Script.meanEnergy N fun i => Script.values N (waves N) (Y (⌈(T - 1e-8) / dt⌉₊ * dt) i)| ≤ max C C' * dt ^ 4 ∧
        kinetic N (run (setup N nu dt) (initial N) ⌈(T - 1e-8) / dt⌉₊).U ≤ 1 / 8 + max C C' * dt ^ 4
      have c : (⌈(T - 1e-8) / dt⌉₊ : ℝ) * dt ≤ T + 1 := by
        have := Nat.ceil_lt_add_one (div_nonneg (by linarith : 0 ≤ T - 1e-8) a.le)
        have h4 : (⌈(T - 1e-8) / dt⌉₊ : ℝ) * dt < ((T - 1e-8) / dt + 1) * dt := mul_lt_mul_of_pos_right this a
        have h5 : ((T - 1e-8) / dt + 1) * dt = T - 1e-8 + dt := by field_simp
        have := b.trans (min_le_left _ _)
        linarith
      have h4 := h dt a.le (b.trans ((min_le_right _ _).trans (min_le_left _ _))) _ c
      have h5 := h' dt a.le (b.trans ((min_le_right _ _).trans (min_le_right _ _))) _ c
      rw [← kinetic_eq, h3] at h5
      have m1 : C * dt ^ 4 ≤ max C C' * dt ^ 4 := mul_le_mul_of_nonneg_right (le_max_left _ _) (by positivity)
      have m2 : C' * dt ^ 4 ≤ max C C' * dt ^ 4 := mul_le_mul_of_nonneg_right (le_max_right _ _) (by positivity)
      exact ⟨fun i x => (h4.2.1 i x).trans m1, h4.2.2.trans m1, by linarith⟩

/-- The grid, viscosity, step and end time written in the script: ten passes. -/
example : script (setup (2 ^ 6) 0.000625 0.01) (initial (2 ^ 6)) 0.1 11 = some (0.1, 10, run (setup (2 ^ 6) 0.000625 0.01) (initial (2 ^ 6)) 10) :=
  C105_lands _ _ _ (by show (1e-8 : ℝ) < 0.01; norm_num) 10 (by show (0.1 : ℝ) = (10 : ℕ) * 0.01; norm_num) 11 (by norm_num)

/-- And the flow it approximates exists. -/
example : ∃ Y : ℝ → SArr 3 (Modes (2 ^ 6)), Solves (Script.navierStokes (2 ^ 6) 0.000625 (waves (2 ^ 6))) Y := by
  obtain ⟨Y, -, h, -⟩ := C105_script (2 ^ 6) (by decide) (by norm_num) 0.000625 (by norm_num)
  exact ⟨Y, h⟩

end SpectralDNS.Short

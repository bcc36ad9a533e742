import Verif.Props.WeakNS

/-!
# C83: NS2D, MHD and Bq2D
-/

namespace SpectralDNS.Periodic

open Complex Spec Dealias Torus MeasureTheory

/-- C83, NS2D.  The same in two dimensions; the stored pressure is the total pressure. -/
theorem C83_two_dimensions (N : Fin 2 → ℕ) (L : Fin 2 → ℝ) (hN : ∀ i, 0 < N i) (hL : ∀ i, 0 < L i) (nu : ℝ) (Source : SArr 2 (RModes N))
    (hsm : ∀ i, Unmasked N (Source i)) (w0 : RModes N → ℂ) (rhs u : SArr 2 (RModes N)) (hm : ∀ i, Unmasked N (u i)) :
    let c := padCtx N L nu Source
    let C : SArr 2 (RModes N) → SArr 2 (RModes N) → SArr 2 (RModes N) := fun r u => conv2DVortex w0 r u c.Tp c.K
    ∃ p, (∀ e, Unmasked N e → IsReal N e → (∀ k, (∀ i, waves N i k = 0) → e k = 0) →
        boxMean L (fun x => fn N L (pressureHat (ComputeRHS c C rhs u).2) x * fn N L e x) =
          boxMean L (fun x => (fn N L p x + 1 / 2 * ∑ j, fn N L (u j) x ^ 2) * fn N L e x)) ∧
      ∀ v : SArr 2 (RModes N), (∀ i, Unmasked N (v i)) → (∀ i, IsReal N (v i)) →
        boxMean L (fun x => ∑ i, fn N L (rhsNS c C rhs u i) x * fn N L (v i) x) =
          momentumWork L nu (fun i => fn N L (u i)) (fun i => fn N L (Source i)) (fun i => fn N L (v i)) (fn N L p) := by
  intro c C
  have hw : ∀ k, rweight N k ≠ 0 := fun k => by unfold rweight; split <;> norm_num
  have h1 : ∀ i k, nyquistMask N k = true → C rhs u i k = -advection c.Tp.forward c.Tp.backward c.K u i k +
      I * c.K i k * (1 / 2 * c.Tp.forward (fun x => ∑ j, c.Tp.backward (u j) x * c.Tp.backward (u j) x) k) := fun i k hk => by
    rw [← lamb2_eq_advection (padCtx_additive N L nu Source) hw (padCtx_adjoint N L nu Source) (padCtx_leibniz N hN L nu Source) hm i k hk]
    exact congrFun (congrFun (conv2D_lamb2 w0 rhs u c.Tp c.K) i) k
  obtain ⟨p, hp, h2, h3⟩ := weak_gradient N L hN hL nu Source hsm C rhs u hm _ h1
  exact ⟨p, fun e he hr h0 => bernoulli N L hN hL u hm p _ hp h2 e he hr h0, h3⟩

/-- C83, MHD.  Momentum equation with the Lorentz force `(b.grad)b` (the magnetic pressure is part of `p`) and induction equation. -/
theorem C83_mhd (N : Fin 3 → ℕ) (L : Fin 3 → ℝ) (hN : ∀ i, 0 < N i) (hL : ∀ i, 0 < L i) (nu eta : ℝ) (rhs ub : SArr 3 (RModes N) × SArr 3 (RModes N))
    (hu : Solenoidal (scaledWaves N L) ub.1) (hb : Solenoidal (scaledWaves N L) ub.2) (hm : ∀ i, Unmasked N (ub.1 i)) (hmb : ∀ i, Unmasked N (ub.2 i)) :
    let c := padCtx N L nu 0
    let R := rhsMHD c eta (fun _ ub => convMHD ub c.Tp c.K) rhs ub
    (∃ p : RModes N → ℂ, ∀ v : SArr 3 (RModes N), (∀ i, Unmasked N (v i)) → (∀ i, IsReal N (v i)) →
      boxMean L (fun x => ∑ i, fn N L (R.1 i) x * fn N L (v i) x) = momentumWork L nu (fun i => fn N L (ub.1 i))
        (fun i x => ∑ j, fn N L (ub.2 j) x * pderiv j (fn N L (ub.2 i)) x) (fun i => fn N L (v i)) (fn N L p)) ∧
    ∀ v : SArr 3 (RModes N), (∀ i, Unmasked N (v i)) → (∀ i, IsReal N (v i)) →
      boxMean L (fun x => ∑ i, fn N L (R.2 i) x * fn N L (v i) x) =
        inductionWork L eta (fun i => fn N L (ub.1 i)) (fun i => fn N L (ub.2 i)) (fun i => fn N L (v i)) := by
  intro c R
  have hA : Additive c.Tp := padCtx_additive N L nu 0
  have hadj := padCtx_adjoint N L nu 0
  have hLb := padCtx_leibniz N hN L nu 0
  have hanti : ∀ (u : SArr 3 (RModes N)) (f g : RModes N → ℂ), Solenoidal (scaledWaves N L) u → (∀ i, Unmasked N (u i)) → Unmasked N f → Unmasked N g →
      adv c.Tp.backward c.K u f g = -adv c.Tp.backward c.K u g f := fun u f g hu hm hf hg => adv_antisymm hA hLb hu hm hf hg
  have hc : ∀ a, Continuous (fn N L a) := fun a => trigField_continuous _ _ _
  have hd : ∀ j a, Continuous (pderiv j (fn N L a)) := fun j a => by rw [fn, pderiv_trigField]; exact trigField_continuous _ _ _
  have hconv := convMHD_eq c.Tp hA c.K ub
  have hR1 : R.1 = rhsNS c (fun _ _ => fun i k => -stressDiv c.Tp.forward c.Tp.backward c.K ub.1 ub.2 i k) rhs.1 ub.1 := by
    funext i k
    simp only [R, rhsMHD, add_pressure_diffusionMHD, hconv, rhsNS, ComputeRHS, add_pressure_diffusion]
    simp [c, padCtx]
  have hR1m : ∀ i, Unmasked N (R.1 i) := by
    rw [hR1]
    exact (rhsNS_unmasked N L nu 0 (fun _ _ _ => rfl) _ rhs.1 ub.1 hm).1
  have hR2 : ∀ i, R.2 i = fun k => maskNyquist c.mask (Spec.induction c.Tp.forward c.Tp.backward c.K ub.1 ub.2) i k - (eta * K2 c.K k : ℝ) * ub.2 i k := by
    intro i
    funext k
    simp only [R, rhsMHD, add_pressure_diffusionMHD, hconv]
  have hR2m : ∀ i, Unmasked N (R.2 i) := fun i k hk => by
    rw [hR2 i]
    simp [c, padCtx, maskNyquist, hk, hmb i k hk]
  constructor
  · refine ⟨pressureHat (ComputeRHS c (fun _ _ => fun i k => -stressDiv c.Tp.forward c.Tp.backward c.K ub.1 ub.2 i k) rhs.1 ub.1).2, fun v hv hr => ?_⟩
    have hf : ∀ i : Fin 3, Continuous fun x => ∑ j, fn N L (ub.2 j) x * pderiv j (fn N L (ub.2 i)) x :=
      fun i => continuous_finsetSum _ fun j _ => (hc _).mul (hd _ _)
    rw [mean_power N L hN hL _ v hR1m hv hr, hR1, power_rhs_pressure c (rweight N) _ rhs.1 ub.1 v hv,
      momentumWork_eq N L hN hL nu ub.1 v _ _ hm hf hv hr
        (rhsNS_unmasked N L nu 0 (fun _ _ _ => rfl) _ rhs.1 ub.1 hm).2, boxMean_sum]
    swap
    · exact fun i => (hf i).mul (hc _)
    rw [Finset.sum_congr rfl fun i _ => mean_adv N L hN hL ub.2 (ub.2 i) (v i) hmb (hmb i) (hv i)]
    have h1 : power (rweight N) v (fun i k => -stressDiv c.Tp.forward c.Tp.backward c.K ub.1 ub.2 i k) =
        1 / Fintype.card (Grid fun i => padded (N i)) * ∑ i, (adv c.Tp.backward c.K ub.1 (v i) (ub.1 i) - adv c.Tp.backward c.K ub.2 (v i) (ub.2 i)) := by
      rw [power_inner]
      simp only [inner_neg_right]
      rw [Finset.sum_neg_distrib, ← power_inner, power_stressDiv hadj, neg_neg]
    rw [h1, Finset.sum_congr rfl fun i _ => by rw [hanti ub.1 (v i) (ub.1 i) hu hm (hv i) (hm i), hanti ub.2 (v i) (ub.2 i) hb hmb (hv i) (hmb i)],
      Finset.sum_sub_distrib, Finset.sum_neg_distrib, Finset.sum_neg_distrib, ← Finset.mul_sum]
    have h0 : power (rweight N) v c.Source = 0 := by simp [power, c, padCtx]
    rw [h0]
    simp only [c, padCtx]
    ring
  · intro v hv hr
    rw [mean_power N L hN hL _ v hR2m hv hr, inductionWork_eq N L hN hL eta ub.1 ub.2 v hm hmb hv hr, ← power_diffusion2]
    have h1 : power (rweight N) v R.2 = power (rweight N) v (Spec.induction c.Tp.forward c.Tp.backward c.K ub.1 ub.2) -
        power (rweight N) v (fun i k => (eta * K2 c.K k : ℝ) * ub.2 i k) := by
      simp only [power_inner]
      rw [← Finset.sum_sub_distrib]
      refine Finset.sum_congr rfl fun i _ => ?_
      rw [hR2 i, inner_sub_right, inner_congr_right (mask := c.mask) (hv i) (s := Spec.induction c.Tp.forward c.Tp.backward c.K ub.1 ub.2 i) fun k hk => by
        rw [maskNyquist_keeps, if_pos hk]]
    rw [h1, power_induction hadj, Finset.sum_congr rfl fun i _ => by
      rw [hanti ub.2 (v i) (ub.1 i) hb hmb (hv i) (hm i), hanti ub.1 (v i) (ub.2 i) hu hm (hv i) (hmb i)], ← mul_neg, ← Finset.sum_neg_distrib]
    congr 2
    exact Finset.sum_congr rfl fun i _ => by simp only [c, padCtx]; ring

theorem inner_diffusion {ι : Type*} [Fintype ι] {d : ℕ} (w : ι → ℝ) (K : Fin d → ι → ℝ) (kappa : ℝ) (q r : ι → ℂ) :
    Spec.inner w q (fun k => ((kappa * K2 K k : ℝ) : ℂ) * r k) = kappa * ∑ j, Spec.inner w (Spec.deriv K j q) (Spec.deriv K j r) := by
  have h1 : ∀ j, Spec.inner w (Spec.deriv K j q) (Spec.deriv K j r) = -Spec.inner w q (Spec.deriv K j (Spec.deriv K j r)) := fun j => by
    rw [inner_deriv w K j q, neg_neg]
  rw [Finset.sum_congr rfl fun j _ => h1 j, Finset.sum_neg_distrib, ← inner_sum_right, ← inner_neg_right]
  simp only [Spec.inner, Finset.mul_sum]
  refine Finset.sum_congr rfl fun k _ => ?_
  have : ∑ j, Spec.deriv K j (Spec.deriv K j r) k = -((K2 K k : ℝ) : ℂ) * r k := by
    simp only [Spec.deriv, K2, ofReal_sum, ofReal_mul, ← Finset.sum_neg_distrib, Finset.sum_mul]
    refine Finset.sum_congr rfl fun j _ => ?_
    linear_combination (K j k * K j k * r k : ℂ) * I_mul_I
  rw [this, mul_left_comm ((starRingEnd ℂ) (q k)), re_ofReal_mul, neg_mul, neg_neg, mul_left_comm ((starRingEnd ℂ) (q k)), re_ofReal_mul]
  ring

/-- C83, Bq2D.  Momentum equation with the buoyancy `-Ri rho` along the second axis, and transport and diffusion of the density. -/
theorem C83_boussinesq (N : Fin 2 → ℕ) (L : Fin 2 → ℝ) (hN : ∀ i, 0 < N i) (hL : ∀ i, 0 < L i) (nu Ri Pr : ℝ) (w0 : SArr 2 (RModes N))
    (rhs ur : SArr 2 (RModes N) × (RModes N → ℂ)) (hu : Solenoidal (scaledWaves N L) ur.1) (hm : ∀ i, Unmasked N (ur.1 i)) (hmr : Unmasked N ur.2) :
    let c := padCtx N L nu 0
    let R := rhsBq c Ri Pr (fun r ur => convBq w0 r ur c.Tp c.K) rhs ur
    (∃ p : RModes N → ℂ, ∀ v : SArr 2 (RModes N), (∀ i, Unmasked N (v i)) → (∀ i, IsReal N (v i)) →
      boxMean L (fun x => ∑ i, fn N L (R.1 i) x * fn N L (v i) x) = momentumWork L nu (fun i => fn N L (ur.1 i))
        (fun i x => if i = 1 then -Ri * fn N L ur.2 x else 0) (fun i => fn N L (v i)) (fn N L p)) ∧
    ∀ q : RModes N → ℂ, Unmasked N q → IsReal N q →
      boxMean L (fun x => fn N L R.2 x * fn N L q x) = scalarWork L (nu / Pr) (fun i => fn N L (ur.1 i)) (fn N L ur.2) (fn N L q) := by
  intro c R
  have hA : Additive c.Tp := padCtx_additive N L nu 0
  have hadj := padCtx_adjoint N L nu 0
  have hLb := padCtx_leibniz N hN L nu 0
  have hw : ∀ k, rweight N k ≠ 0 := fun k => by unfold rweight; split <;> norm_num
  have hc : ∀ a, Continuous (fn N L a) := fun a => trigField_continuous _ _ _
  have hconv := convBq_eq w0 rhs ur c.Tp c.K
  let g : SArr 2 (RModes N) := fun i k => if i = 1 then -(Ri : ℂ) * ur.2 k else 0
  have hgm : ∀ i, Unmasked N (g i) := fun i k hk => by simp [g, hmr k hk]
  let conv : SArr 2 (RModes N) → SArr 2 (RModes N) → SArr 2 (RModes N) := fun _ u i k => lamb2 c.Tp.forward c.Tp.backward c.K u i k + g i k
  let conv' : SArr 2 (RModes N) → SArr 2 (RModes N) → SArr 2 (RModes N) := fun _ u i k => -advection c.Tp.forward c.Tp.backward c.K u i k + g i k
  have hR1 : R.1 = rhsNS c conv rhs.1 ur.1 := by
    have hmask : ∀ j k, maskNyquist c.mask (conv rhs.1 ur.1) j k = maskNyquist c.mask (lamb2 c.Tp.forward c.Tp.backward c.K ur.1) j k + g j k :=
      fun j k => by
        by_cases hk : nyquistMask N k = true
        · simp [c, padCtx, maskNyquist, hk, conv]
        · have hk' : nyquistMask N k = false := by simpa using hk
          simp [c, padCtx, maskNyquist, hk', hgm j k hk']
    funext i k
    simp only [R, rhsBq, add_pressure_diffusionBq, hconv, rhsNS, ComputeRHS, add_pressure_diffusion, hmask, Function.update]
    have hs : ∀ F : Fin (1 + 1) → ℂ, ∑ j, F j = F 0 + F 1 := fun F => Fin.sum_univ_two F
    simp only [hs]
    have hS : c.Source i k = 0 := rfl
    rw [hS]
    fin_cases i
    · simp [g]
      left
      ring
    · simp [g]
      ring
  have hg := rhsNS_gradient c conv conv' rhs.1 rhs.1 ur.1 _ fun i k hk => by
    simp only [conv, conv']
    rw [lamb2_eq_advection hA hw hadj hLb hm i k hk]
    exact (add_right_comm _ _ _)
  constructor
  · refine ⟨pressureHat (ComputeRHS c conv' rhs.1 ur.1).2, fun v hv hr => ?_⟩
    have hf : ∀ i : Fin 2, Continuous fun x => if i = 1 then -Ri * fn N L ur.2 x else 0 := fun i => by
      split_ifs
      · exact continuous_const.mul (hc _)
      · exact continuous_const
    rw [hR1, mean_power N L hN hL _ v (rhsNS_unmasked N L nu 0 (fun _ _ _ => rfl) _ rhs.1 ur.1 hm).1 hv hr, hg.1,
      power_rhs_pressure c (rweight N) _ rhs.1 ur.1 v hv,
      momentumWork_eq N L hN hL nu ur.1 v _ _ hm hf hv hr (rhsNS_unmasked N L nu 0 (fun _ _ _ => rfl) _ rhs.1 ur.1 hm).2]
    have h1 : power (rweight N) v (conv' rhs.1 ur.1) = -power (rweight N) v (advection c.Tp.forward c.Tp.backward c.K ur.1) + power (rweight N) v g := by
      simp only [power_inner]
      rw [← Finset.sum_neg_distrib, ← Finset.sum_add_distrib]
      refine Finset.sum_congr rfl fun i _ => ?_
      rw [← inner_neg_right, ← inner_add_right]
    have h2 : boxMean L (fun x => ∑ i : Fin 2, (if i = 1 then -Ri * fn N L ur.2 x else 0) * fn N L (v i) x) = power (rweight N) v g := by
      rw [← mean_power N L hN hL g v hgm hv hr]
      congr 1
      funext x
      refine Finset.sum_congr rfl fun i _ => ?_
      congr 1
      split_ifs with h
      · simp only [g, h, if_true, fn, trigField]
        rw [← re_ofReal_mul, Finset.mul_sum]
        congr 1
        exact Finset.sum_congr rfl fun k _ => by push_cast; ring
      · simp [g, h, fn, trigField]
    have h0 : power (rweight N) v c.Source = 0 := by simp [power, c, padCtx]
    rw [h1, h2, h0, power_advection hadj]
    simp only [c, padCtx]
    ring
  · intro q hq hr
    have hR2 : R.2 = fun k => maskNyquist (d := 1) c.mask (fun _ k => -fluxDiv c.Tp.forward c.Tp.backward c.K ur.1 ur.2 k) 0 k -
        ((nu / Pr * K2 c.K k : ℝ) : ℂ) * ur.2 k := by
      funext k
      simp only [R, rhsBq, add_pressure_diffusionBq, hconv]
      congr 1
      simp only [c, padCtx]
      push_cast
      ring
    have hR2m : Unmasked N R.2 := fun k hk => by
      rw [hR2]
      simp [c, padCtx, maskNyquist, hk, hmr k hk]
    rw [mean_inner N hN L hL _ q hR2m hq hr, inner_symm, hR2, inner_sub_right,
      scalarWork_eq N L hN hL (nu / Pr) ur.1 ur.2 q hm hmr hq hr, inner_congr_right (mask := c.mask) hq
        (s := fun k => -fluxDiv c.Tp.forward c.Tp.backward c.K ur.1 ur.2 k) fun k hk => by rw [maskNyquist_keeps, if_pos hk],
      inner_neg_right, inner_fluxDiv hadj, neg_neg, adv_antisymm hA hLb hu hm hq hmr]
    rw [inner_diffusion]
    simp only [c, padCtx]
    ring

end SpectralDNS.Periodic

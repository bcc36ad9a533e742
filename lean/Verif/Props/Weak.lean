import Verif.Props.Forms
import Verif.Lemmas.Torus

/-!
# C83: with the 3/2-rule the periodic solvers are Galerkin methods for the equations in physical space
-/

namespace SpectralDNS.Periodic

open Complex Spec Dealias Torus MeasureTheory

/-! ## Means -/

section
variable {d : ℕ} (L : Fin d → ℝ)

theorem boxMean_add {f g : (Fin d → ℝ) → ℝ} (hf : Continuous f) (hg : Continuous g) :
    boxMean L (fun x => f x + g x) = boxMean L f + boxMean L g := by
  simp only [boxMean]
  rw [integral_add hf.integrableOn_Icc hg.integrableOn_Icc, mul_add]

theorem boxMean_const_mul (c : ℝ) (f : (Fin d → ℝ) → ℝ) : boxMean L (fun x => c * f x) = c * boxMean L f := by
  simp only [boxMean]
  rw [integral_const_mul, mul_left_comm]

theorem boxMean_neg (f : (Fin d → ℝ) → ℝ) : boxMean L (fun x => -f x) = -boxMean L f := by
  simp only [boxMean]
  rw [integral_neg, mul_neg]

theorem boxMean_sub {f g : (Fin d → ℝ) → ℝ} (hf : Continuous f) (hg : Continuous g) :
    boxMean L (fun x => f x - g x) = boxMean L f - boxMean L g := by
  simp only [boxMean]
  rw [integral_sub hf.integrableOn_Icc hg.integrableOn_Icc, mul_sub]

theorem boxMean_sum {J : Type*} (s : Finset J) {f : J → (Fin d → ℝ) → ℝ} (hf : ∀ j, Continuous (f j)) :
    boxMean L (fun x => ∑ j ∈ s, f j x) = ∑ j ∈ s, boxMean L (f j) := by
  simp only [boxMean]
  rw [integral_finset_sum _ fun j _ => (hf j).integrableOn_Icc, Finset.mul_sum]

end

section
variable {ι X : Type*} {d : ℕ} [Fintype ι]

theorem inner_congr_right {w : ι → ℝ} {mask : Option (ι → Bool)} {e r s : ι → ℂ} (he : Vanishes mask e) (h : ∀ k, keeps mask k = true → r k = s k) :
    Spec.inner w e r = Spec.inner w e s := Finset.sum_congr rfl fun k _ => by
  by_cases hk : keeps mask k = true
  · rw [h k hk]
  · rw [he k (by simpa using hk)]; simp

theorem dissipation2_deriv (w : ι → ℝ) (K : Fin d → ι → ℝ) (u v : SArr d ι) :
    dissipation2 w K u v = ∑ i, ∑ j, Spec.inner w (Spec.deriv K j (u i)) (Spec.deriv K j (v i)) := by
  simp only [dissipation2, Spec.inner, Spec.deriv, Spec.normSq, at']
  refine Finset.sum_congr rfl fun i _ => ?_
  rw [Finset.sum_comm]
  refine Finset.sum_congr rfl fun k _ => ?_
  rw [Finset.mul_sum, Finset.sum_mul]
  refine Finset.sum_congr rfl fun j _ => ?_
  have : (starRingEnd ℂ) (I * K j k * u i k) * (I * K j k * v i k) = ((K j k ^ 2 : ℝ) : ℂ) * ((starRingEnd ℂ) (u i k) * v i k) := by
    simp only [map_mul, conj_I, conj_ofReal]
    push_cast
    linear_combination (-(K j k : ℂ) ^ 2 * ((starRingEnd ℂ) (u i k) * v i k)) * I_mul_I
  rw [this, re_ofReal_mul]
  ring

/-- Work of the right-hand side of the momentum equation on any field without masked modes. -/
theorem power_rhs_pressure (c : Ctx d ι X) (w : ι → ℝ) (conv : SArr d ι → SArr d ι → SArr d ι) (rhs u v : SArr d ι)
    (hm : ∀ i, Vanishes c.mask (v i)) :
    power w v (rhsNS c conv rhs u) = power w v (conv rhs u) +
      ∑ i, Spec.inner w (Spec.deriv c.K i (v i)) (pressureHat (ComputeRHS c conv rhs u).2) - c.nu * dissipation2 w c.K v u + power w v c.Source := by
  have h : ∀ i, rhsNS c conv rhs u i = fun k => (maskNyquist c.mask (conv rhs u) i k - Spec.deriv c.K i (pressureHat (ComputeRHS c conv rhs u).2) k -
      (c.nu * K2 c.K k : ℝ) * u i k) + c.Source i k := fun i => funext fun k => by
    simp only [rhsNS, ComputeRHS, add_pressure_diffusion, Spec.deriv, pressureHat]
    linear_combination (-(∑ j, maskNyquist c.mask (conv rhs u) j k * (K_over_K2 c.K j k : ℂ)) * c.K i k) * I_mul_I
  rw [← power_diffusion2, power_inner, power_inner, power_inner, power_inner, ← Finset.sum_add_distrib, ← Finset.sum_sub_distrib,
    ← Finset.sum_add_distrib]
  refine Finset.sum_congr rfl fun i _ => ?_
  rw [h i, inner_add_right, inner_sub_right, inner_sub_right, inner_deriv, inner_congr_right (hm i) (s := conv rhs u i) fun k hk => by
    rw [maskNyquist_keeps, if_pos hk]]
  ring

end

/-! ## The functions of the padded solvers -/

variable {n : ℕ} (N : Fin (n + 1) → ℕ) (L : Fin (n + 1) → ℝ)

/-- The function on the box with the coefficients `a`. -/
noncomputable abbrev fn (a : RModes N → ℂ) : (Fin (n + 1) → ℝ) → ℝ := trigField (rweight N) (scaledWaves N L) a

/-- C83.  The values on the grid computed by the backward transforms (`get_velocity`, ...) are those of the function. -/
theorem C83_grid (M : Fin (n + 1) → ℕ) (hL : ∀ i, L i ≠ 0) (a : RModes N → ℂ) (x : Grid M) :
    (rspace N M).backward a x = fn N L a fun i => L i * (x i : ℕ) / M i := by
  simp only [rspace, dft, trigField, kernel, scaledWaves]
  congr 1
  refine Finset.sum_congr rfl fun k _ => ?_
  congr 2
  rw [Finset.mul_sum, Finset.mul_sum]
  refine Finset.sum_congr rfl fun i _ => ?_
  have : (L i : ℂ) ≠ 0 := by exact_mod_cast hL i
  push_cast
  field_simp

/-- C83.  `get_pressure` returns the values at the grid points of the pressure of the momentum balance. -/
theorem C83_get_pressure (M : Fin (n + 1) → ℕ) (hL : ∀ i, L i ≠ 0) (P : RModes N → ℂ) (x : Grid M) :
    get_pressure (rspace N M) P x = fn N L (pressureHat P) fun i => L i * (x i : ℕ) / M i :=
  C83_grid N L M hL _ x

/-- C83.  A field with divergence-free coefficients has zero divergence at every point. -/
theorem C83_divergence (u : SArr (n + 1) (RModes N)) (hu : Solenoidal (scaledWaves N L) u) (x : Fin (n + 1) → ℝ) :
    ∑ i, pderiv i (fn N L (u i)) x = 0 := by
  simp only [fn, pderiv_trigField]
  rw [← trigField_sum, trigField]
  have : ∀ k, ∑ i, Spec.deriv (scaledWaves N L) i (u i) k = 0 := fun k => by
    have := hu k
    simp only [dot, at'] at this
    simp only [Spec.deriv, mul_assoc, ← Finset.mul_sum, this, mul_zero]
  simp [this]

section
variable {N L}

theorem real_deriv {a : RModes N → ℂ} (h : IsReal N a) (j : Fin (n + 1)) : IsReal N (Spec.deriv (scaledWaves N L) j a) := fun k k' hk => by
  simp only [Spec.deriv, h k k' hk, scaledWaves, hk, map_mul, conj_I, conj_ofReal]
  push_cast
  ring

theorem unmasked_deriv {a : RModes N → ℂ} (h : Unmasked N a) (j : Fin (n + 1)) : Unmasked N (Spec.deriv (scaledWaves N L) j a) := fun k hk => by
  rw [Spec.deriv, h k hk, mul_zero]

end

variable (hN : ∀ i, 0 < N i) (hL : ∀ i, 0 < L i)
include hN hL

theorem mean_inner' (a b : RModes N → ℂ) (ha : Unmasked N a) (hb : Unmasked N b) (hr : IsReal N a) :
    boxMean L (fun x => fn N L a x * fn N L b x) = Spec.inner (rweight N) a b := by
  rw [inner_symm, ← mean_inner N hN L hL b a hb ha hr]
  exact congrArg _ (funext fun x => mul_comm _ _)

/-- Transport of `f` by `u`, tested with `g`, is computed without error on the padded grid. -/
theorem mean_adv (u : SArr (n + 1) (RModes N)) (f g : RModes N → ℂ) (hu : ∀ i, Unmasked N (u i)) (hf : Unmasked N f) (hg : Unmasked N g) :
    boxMean L (fun x => (∑ j, fn N L (u j) x * pderiv j (fn N L f) x) * fn N L g x) =
      1 / Fintype.card (Grid fun i => padded (N i)) * adv (rspace N fun i => padded (N i)).backward (scaledWaves N L) u f g := by
  simp only [Finset.sum_mul, fn, pderiv_trigField]
  have hc : ∀ a, Continuous (fn N L a) := fun a => trigField_continuous _ _ _
  rw [boxMean_sum]
  swap
  · exact fun j => ((hc _).mul (hc _)).mul (hc _)
  rw [adv, Finset.sum_comm, Finset.mul_sum]
  exact Finset.sum_congr rfl fun j _ => mean_three N hN L hL (u j) _ g (hu j) (unmasked_deriv hf j) hg

/-- The momentum balance in terms of coefficients. -/
theorem momentumWork_eq (nu : ℝ) (u v : SArr (n + 1) (RModes N)) (f : Fin (n + 1) → (Fin (n + 1) → ℝ) → ℝ) (p : RModes N → ℂ)
    (hu : ∀ i, Unmasked N (u i)) (hf : ∀ i, Continuous (f i)) (hv : ∀ i, Unmasked N (v i)) (hr : ∀ i, IsReal N (v i)) (hp : Unmasked N p) :
    momentumWork L nu (fun i => fn N L (u i)) f (fun i => fn N L (v i)) (fn N L p) =
      -(1 / Fintype.card (Grid fun i => padded (N i)) * ∑ i, adv (rspace N fun i => padded (N i)).backward (scaledWaves N L) u (u i) (v i)) +
      ∑ i, Spec.inner (rweight N) (Spec.deriv (scaledWaves N L) i (v i)) p - nu * dissipation2 (rweight N) (scaledWaves N L) v u +
      boxMean L (fun x => ∑ i, f i x * fn N L (v i) x) := by
  have hc : ∀ a, Continuous (fn N L a) := fun a => trigField_continuous _ _ _
  have hd : ∀ j a, Continuous (pderiv j (fn N L a)) := fun j a => by rw [fn, pderiv_trigField]; exact trigField_continuous _ _ _
  have h1 : ∀ i, boxMean L (fun x => (-(∑ j, fn N L (u j) x * pderiv j (fn N L (u i)) x) + f i x) * fn N L (v i) x +
      fn N L p x * pderiv i (fn N L (v i)) x - nu * ∑ j, pderiv j (fn N L (u i)) x * pderiv j (fn N L (v i)) x) =
      -(1 / Fintype.card (Grid fun i => padded (N i)) * adv (rspace N fun i => padded (N i)).backward (scaledWaves N L) u (u i) (v i)) +
        Spec.inner (rweight N) (Spec.deriv (scaledWaves N L) i (v i)) p - nu * (∑ j, Spec.inner (rweight N)
          (Spec.deriv (scaledWaves N L) j (v i)) (Spec.deriv (scaledWaves N L) j (u i))) + boxMean L (fun x => f i x * fn N L (v i) x) := fun i => by
    have hs : Continuous fun x => ∑ j, fn N L (u j) x * pderiv j (fn N L (u i)) x :=
      continuous_finsetSum _ fun j _ => (hc _).mul (hd _ _)
    have hs2 : Continuous fun x => ∑ j, pderiv j (fn N L (u i)) x * pderiv j (fn N L (v i)) x :=
      continuous_finsetSum _ fun j _ => (hd _ _).mul (hd _ _)
    rw [boxMean_sub, boxMean_add, boxMean_const_mul]
    rotate_left
    · exact (hs.neg.add (hf _)).mul (hc _)
    · exact (hc _).mul (hd _ _)
    · exact ((hs.neg.add (hf _)).mul (hc _)).add ((hc _).mul (hd _ _))
    · exact continuous_const.mul hs2
    simp only [add_mul, neg_mul]
    rw [boxMean_add, boxMean_neg, mean_adv N L hN hL u (u i) (v i) hu (hu i) (hv i), boxMean_sum]
    rotate_left
    · exact fun j => (hd _ _).mul (hd _ _)
    · exact (hs.mul (hc _)).neg
    · exact (hf _).mul (hc _)
    simp only [fn, pderiv_trigField]
    rw [mean_inner N hN L hL p _ hp (unmasked_deriv (hv i) i) (real_deriv (hr i) i), inner_symm (rweight N) p,
      Finset.sum_congr rfl fun j _ => (mean_inner N hN L hL _ _ (unmasked_deriv (hu i) j) (unmasked_deriv (hv i) j) (real_deriv (hr i) j)).trans
        (inner_symm _ _ _)]
    ring
  rw [momentumWork, boxMean_sum, boxMean_sum]
  · rw [Finset.sum_congr rfl fun i _ => h1 i, dissipation2_deriv, Finset.sum_add_distrib, Finset.sum_sub_distrib,
      Finset.sum_add_distrib, Finset.sum_neg_distrib, Finset.mul_sum, Finset.mul_sum]
  · exact fun i => (hf _).mul (hc _)
  · intro i
    exact ((((continuous_finsetSum _ fun j _ => (hc _).mul (hd _ _)).neg.add (hf _)).mul (hc _)).add ((hc _).mul (hd _ _))).sub
      (continuous_const.mul (continuous_finsetSum _ fun j _ => (hd _ _).mul (hd _ _)))

theorem scalarWork_eq (kappa : ℝ) (u : SArr (n + 1) (RModes N)) (rho q : RModes N → ℂ) (hu : ∀ i, Unmasked N (u i)) (hm : Unmasked N rho)
    (hq : Unmasked N q) (hr : IsReal N q) :
    scalarWork L kappa (fun i => fn N L (u i)) (fn N L rho) (fn N L q) =
      -(1 / Fintype.card (Grid fun i => padded (N i)) * adv (rspace N fun i => padded (N i)).backward (scaledWaves N L) u rho q) -
      kappa * ∑ j, Spec.inner (rweight N) (Spec.deriv (scaledWaves N L) j q) (Spec.deriv (scaledWaves N L) j rho) := by
  have hc : ∀ a, Continuous (fn N L a) := fun a => trigField_continuous _ _ _
  have hd : ∀ j a, Continuous (pderiv j (fn N L a)) := fun j a => by rw [fn, pderiv_trigField]; exact trigField_continuous _ _ _
  have hs : Continuous fun x => ∑ j, fn N L (u j) x * pderiv j (fn N L rho) x := continuous_finsetSum _ fun j _ => (hc _).mul (hd _ _)
  simp only [scalarWork, neg_mul]
  rw [boxMean_sub, boxMean_neg, mean_adv N L hN hL u rho q hu hm hq, boxMean_const_mul, boxMean_sum]
  rotate_left
  · exact fun j => (hd _ _).mul (hd _ _)
  · exact (hs.mul (hc _)).neg
  · exact continuous_const.mul (continuous_finsetSum _ fun j _ => (hd _ _).mul (hd _ _))
  simp only [fn, pderiv_trigField]
  rw [Finset.sum_congr rfl fun j _ => (mean_inner N hN L hL _ _ (unmasked_deriv hm j) (unmasked_deriv hq j) (real_deriv hr j)).trans
    (inner_symm _ _ _)]

theorem inductionWork_eq (eta : ℝ) (u b v : SArr (n + 1) (RModes N)) (hu : ∀ i, Unmasked N (u i)) (hb : ∀ i, Unmasked N (b i))
    (hv : ∀ i, Unmasked N (v i)) (hr : ∀ i, IsReal N (v i)) :
    inductionWork L eta (fun i => fn N L (u i)) (fun i => fn N L (b i)) (fun i => fn N L (v i)) =
      1 / Fintype.card (Grid fun i => padded (N i)) * ∑ i, (adv (rspace N fun i => padded (N i)).backward (scaledWaves N L) b (u i) (v i) -
        adv (rspace N fun i => padded (N i)).backward (scaledWaves N L) u (b i) (v i)) - eta * dissipation2 (rweight N) (scaledWaves N L) v b := by
  have hc : ∀ a, Continuous (fn N L a) := fun a => trigField_continuous _ _ _
  have hd : ∀ j a, Continuous (pderiv j (fn N L a)) := fun j a => by rw [fn, pderiv_trigField]; exact trigField_continuous _ _ _
  have hs : ∀ (u : SArr (n + 1) (RModes N)) a, Continuous fun x => ∑ j, fn N L (u j) x * pderiv j (fn N L a) x :=
    fun u a => continuous_finsetSum _ fun j _ => (hc _).mul (hd _ _)
  have hs2 : ∀ i, Continuous fun x => ∑ j, pderiv j (fn N L (b i)) x * pderiv j (fn N L (v i)) x :=
    fun i => continuous_finsetSum _ fun j _ => (hd _ _).mul (hd _ _)
  simp only [inductionWork, sub_mul]
  rw [boxMean_sum, dissipation2_deriv, Finset.mul_sum, Finset.mul_sum, ← Finset.sum_sub_distrib]
  · refine Finset.sum_congr rfl fun i _ => ?_
    rw [boxMean_sub, boxMean_sub, mean_adv N L hN hL b (u i) (v i) hb (hu i) (hv i), mean_adv N L hN hL u (b i) (v i) hu (hb i) (hv i),
      boxMean_const_mul, boxMean_sum]
    rotate_left
    · exact fun j => (hd _ _).mul (hd _ _)
    · exact (hs _ _).mul (hc _)
    · exact (hs _ _).mul (hc _)
    · exact ((hs _ _).mul (hc _)).sub ((hs _ _).mul (hc _))
    · exact continuous_const.mul (hs2 i)
    simp only [fn, pderiv_trigField]
    rw [Finset.sum_congr rfl fun j _ => (mean_inner N hN L hL _ _ (unmasked_deriv (hb i) j) (unmasked_deriv (hv i) j) (real_deriv (hr i) j)).trans
      (inner_symm _ _ _)]
    ring
  · exact fun i => (((hs _ _).mul (hc _)).sub ((hs _ _).mul (hc _))).sub (continuous_const.mul (hs2 i))

theorem mean_power {d : ℕ} (r v : Fin d → RModes N → ℂ) (hrm : ∀ i, Unmasked N (r i)) (hv : ∀ i, Unmasked N (v i)) (hr : ∀ i, IsReal N (v i)) :
    boxMean L (fun x => ∑ i, fn N L (r i) x * fn N L (v i) x) = power (rweight N) v r := by
  rw [boxMean_sum, power_inner]
  swap
  · exact fun i => (trigField_continuous _ _ _).mul (trigField_continuous _ _ _)
  exact Finset.sum_congr rfl fun i _ => (mean_inner N hN L hL _ _ (hrm i) (hv i) (hr i)).trans (inner_symm _ _ _)

omit hN hL in
theorem rhsNS_unmasked (nu : ℝ) (Source : SArr (n + 1) (RModes N)) (hsm : ∀ i, Unmasked N (Source i)) (conv) (rhs u : SArr (n + 1) (RModes N))
    (hm : ∀ i, Unmasked N (u i)) : (∀ i, Unmasked N (rhsNS (padCtx N L nu Source) conv rhs u i)) ∧
      Unmasked N (pressureHat (ComputeRHS (padCtx N L nu Source) conv rhs u).2) := by
  refine ⟨fun i k hk => ?_, fun k hk => ?_⟩
  · simp [rhsNS, ComputeRHS, add_pressure_diffusion, padCtx, maskNyquist, hk, hsm i k hk, hm i k hk]
  · simp [pressureHat, ComputeRHS, add_pressure_diffusion, padCtx, maskNyquist, hk]

/-- A convective term that is, on the kept modes, minus `(u.grad)u` gives the momentum balance with the stored pressure. -/
theorem weak_of_conv (nu : ℝ) (Source : SArr (n + 1) (RModes N)) (hsm : ∀ i, Unmasked N (Source i)) (conv) (rhs u : SArr (n + 1) (RModes N))
    (hm : ∀ i, Unmasked N (u i)) (hconv : ∀ i k, nyquistMask N k = true → conv rhs u i k =
      -advection (rspace N fun i => padded (N i)).forward (rspace N fun i => padded (N i)).backward (scaledWaves N L) u i k)
    (v : SArr (n + 1) (RModes N)) (hv : ∀ i, Unmasked N (v i)) (hr : ∀ i, IsReal N (v i)) :
    power (rweight N) v (rhsNS (padCtx N L nu Source) conv rhs u) =
      momentumWork L nu (fun i => fn N L (u i)) (fun i => fn N L (Source i)) (fun i => fn N L (v i))
        (fn N L (pressureHat (ComputeRHS (padCtx N L nu Source) conv rhs u).2)) := by
  rw [momentumWork_eq N L hN hL nu u v _ _ hm (fun i => trigField_continuous _ _ _) hv hr (rhsNS_unmasked N L nu Source hsm conv rhs u hm).2,
    mean_power N L hN hL Source v hsm hv hr, power_rhs_pressure (padCtx N L nu Source) (rweight N) conv rhs u v hv]
  have h1 : power (rweight N) v (conv rhs u) = -power (rweight N) v (advection (rspace N fun i => padded (N i)).forward
      (rspace N fun i => padded (N i)).backward (scaledWaves N L) u) := by
    rw [power_inner, power_inner, ← Finset.sum_neg_distrib]
    refine Finset.sum_congr rfl fun i _ => ?_
    rw [← inner_neg_right]
    exact inner_congr_right (mask := some (nyquistMask N)) (hv i) fun k hk => hconv i k hk
  rw [h1, power_advection (T := rspace N fun i => padded (N i)) (padCtx_adjoint N L nu Source)]
  rfl

end SpectralDNS.Periodic

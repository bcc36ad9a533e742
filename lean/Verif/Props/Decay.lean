import Verif.Spec.Decay
import Verif.Props.Forms
import Verif.Props.GlobalSolutions
import Verif.Props.TaylorGreen
import Mathlib.Analysis.Calculus.MeanValue
import Mathlib.Analysis.SpecialFunctions.ExpDeriv

/-!
# C121: unforced periodic flows die out, forced ones stay bounded for all times
-/

namespace SpectralDNS.Periodic

open Complex Spec Dealias

/-! ## Decay of a function -/

/-- `y' <= e - a y` bounds `y` for all times. -/
theorem decay_le {y y' : ℝ → ℝ} {a e : ℝ} (ha : 0 < a) (hc : ContinuousOn y (Set.Ici 0)) (hd : ∀ t, 0 < t → HasDerivAt y (y' t) t)
    (hb : ∀ t, 0 < t → y' t ≤ e - a * y t) (t : ℝ) (ht : 0 ≤ t) : y t ≤ Real.exp (-(a * t)) * y 0 + e / a * (1 - Real.exp (-(a * t))) := by
  have hz : ∀ s, 0 < s → HasDerivAt (fun s => Real.exp (a * s) * (y s - e / a)) (Real.exp (a * s) * a * (y s - e / a) + Real.exp (a * s) * y' s) s := fun s hs => by
    have h1 : HasDerivAt (fun s => Real.exp (a * s)) (Real.exp (a * s) * a) s := by
      have := ((hasDerivAt_id s).const_mul a).exp
      simpa using this
    exact h1.mul ((hd s hs).sub_const _)
  have hanti : AntitoneOn (fun s => Real.exp (a * s) * (y s - e / a)) (Set.Ici 0) := by
    refine antitoneOn_of_deriv_nonpos (convex_Ici 0) ?_ (fun s hs => ?_) fun s hs => ?_
    · exact ((Real.continuous_exp.comp (continuous_const.mul continuous_id)).continuousOn).mul (hc.sub continuousOn_const)
    · rw [interior_Ici] at hs
      exact (hz s hs).differentiableAt.differentiableWithinAt
    · rw [interior_Ici] at hs
      rw [(hz s hs).deriv]
      have h1 := hb s hs
      have h2 : a * (y s - e / a) + y' s ≤ 0 := by
        have : a * (e / a) = e := by field_simp
        rw [mul_sub, this]
        linarith
      have h3 := mul_nonpos_of_nonneg_of_nonpos (Real.exp_pos (a * s)).le h2
      linarith
  have h := hanti (Set.mem_Ici.2 le_rfl) (Set.mem_Ici.2 ht) ht
  simp only [mul_zero, Real.exp_zero, one_mul] at h
  have h1 : Real.exp (-(a * t)) * Real.exp (a * t) = 1 := by rw [← Real.exp_add]; simp
  have h2 := mul_le_mul_of_nonneg_left h (Real.exp_pos (-(a * t))).le
  rw [← mul_assoc, h1, one_mul] at h2
  linarith

/-! ## The mean and the rest -/

variable {d : ℕ} {ι X : Type*}

theorem fluctuation_zero {K : Fin d → ι → ℝ} {k : ι} (hk : ∀ i, K i k = 0) (a : ι → ℂ) : fluctuation K a k = 0 := if_pos hk

theorem fluctuation_of {K : Fin d → ι → ℝ} {k : ι} (hk : ¬∀ i, K i k = 0) (a : ι → ℂ) : fluctuation K a k = a k := if_neg hk

variable [Fintype ι] [Fintype X]

omit [Fintype X] in
theorem inner_fluctuation (w : ι → ℝ) (K : Fin d → ι → ℝ) (a b : ι → ℂ) (hb : ∀ k, (∀ i, K i k = 0) → b k = 0) :
    Spec.inner w (fluctuation K a) b = Spec.inner w a b :=
  Finset.sum_congr rfl fun k _ => by
    by_cases hk : ∀ i, K i k = 0
    · rw [hb k hk, mul_zero, mul_zero]
    · rw [fluctuation_of hk]

omit [Fintype X] in
/-- Poincare's inequality for a component. -/
theorem inner_poincare {w : ι → ℝ} (hw : ∀ k, 0 < w k) {K : Fin d → ι → ℝ} {q : ℝ} (hq : ∀ k, (¬∀ i, K i k = 0) → q ≤ Spec.normSq (at' K k)) (a : ι → ℂ) :
    q * Spec.inner w (fluctuation K a) (fluctuation K a) ≤ ∑ k, w k * Spec.normSq (at' K k) * Complex.normSq (a k) := by
  rw [inner_self, Finset.mul_sum]
  refine Finset.sum_le_sum fun k _ => ?_
  by_cases hk : ∀ i, K i k = 0
  · rw [fluctuation_zero hk, map_zero, mul_zero, mul_zero]
    refine mul_nonneg (mul_nonneg (hw k).le ?_) (Complex.normSq_nonneg _)
    exact Finset.sum_nonneg fun i _ => sq_nonneg _
  · rw [fluctuation_of hk]
    have := mul_le_mul_of_nonneg_right (hq k hk) (mul_nonneg (hw k).le (Complex.normSq_nonneg (a k)))
    linarith

omit [Fintype X] in
theorem energy_eq_inner (w : ι → ℝ) (u : SArr d ι) : energy w u = 1 / 2 * ∑ i, Spec.inner w (u i) (u i) := by
  simp only [energy, inner_self]

omit [Fintype X] in
/-- Poincare's inequality. -/
theorem dissipation_poincare {w : ι → ℝ} (hw : ∀ k, 0 < w k) {K : Fin d → ι → ℝ} {q : ℝ} (hq : ∀ k, (¬∀ i, K i k = 0) → q ≤ Spec.normSq (at' K k))
    (u : SArr d ι) : 2 * q * energy w (fun i => fluctuation K (u i)) ≤ dissipation w K u := by
  have h1 : dissipation w K u = ∑ i, ∑ k, w k * Spec.normSq (at' K k) * Complex.normSq (u i k) := by
    simp only [dissipation, Finset.mul_sum]
    exact Finset.sum_comm
  have h2 := Finset.sum_le_sum fun i (_ : i ∈ Finset.univ) => inner_poincare hw hq (u i)
  rw [energy_eq_inner, h1, ← mul_assoc]
  rw [← Finset.mul_sum] at h2
  linarith

omit [Fintype X] in
theorem gradSq_poincare {w : ι → ℝ} (hw : ∀ k, 0 < w k) {K : Fin d → ι → ℝ} {q : ℝ} (hq : ∀ k, (¬∀ i, K i k = 0) → q ≤ Spec.normSq (at' K k))
    (a : ι → ℂ) : 2 * q * variance w (fluctuation K a) ≤ gradSq w K a := by
  have h1 : gradSq w K a = ∑ k, w k * Spec.normSq (at' K k) * Complex.normSq (a k) := by
    simp only [gradSq, inner_self, Spec.normSq, at', Finset.mul_sum, Finset.sum_mul]
    rw [Finset.sum_comm]
    refine Finset.sum_congr rfl fun k _ => Finset.sum_congr rfl fun j _ => ?_
    simp only [Spec.deriv, map_mul, normSq_I, normSq_ofReal, one_mul]
    ring
  have h2 := inner_poincare hw hq a
  rw [h1, variance]
  linarith

omit [Fintype X] in
/-- Energy of the fluctuations along a curve whose mean does not change. -/
theorem fluctuation_energy_hasDeriv (w : ι → ℝ) (K : Fin d → ι → ℝ) (U : ℝ → SArr d ι) (r : SArr d ι) (t : ℝ)
    (h : ∀ i k, HasDerivAt (fun s => U s i k) (r i k) t) (hr : ZeroMean K r) :
    HasDerivAt (fun s => energy w fun i => fluctuation K (U s i)) (power w (U t) r) t := by
  have h1 := energy_hasDeriv w (fun s i => fluctuation K (U s i)) r t fun i k => by
    by_cases hk : ∀ i, K i k = 0
    · simp only [fluctuation_zero hk, hr k hk]
      exact hasDerivAt_const _ _
    · simp only [fluctuation_of hk]
      exact h i k
  refine h1.congr_deriv ?_
  rw [power_inner, power_inner]
  exact Finset.sum_congr rfl fun i _ => inner_fluctuation w K _ _ fun k hk => hr k hk i

omit [Fintype X] in
theorem continuousOn_fluctuation {E : Type*} [NormedAddCommGroup E] [NormedSpace ℝ E] {f : E → E} {U : ℝ → E} (hU : Solves f U) (w : ι → ℝ) (K : Fin d → ι → ℝ)
    (p : E → SArr d ι) (hp : Continuous p) : ContinuousOn (fun s => energy w fun i => fluctuation K (p (U s) i)) (Set.Ici 0) := by
  have h0 : ContinuousOn U (Set.Ici 0) := fun t ht => (hU t ht).continuousWithinAt
  have h1 : Continuous fun u : SArr d ι => energy w fun i => fluctuation K (u i) := by
    unfold energy
    refine continuous_const.mul (continuous_finsetSum _ fun i _ => continuous_finsetSum _ fun k _ => continuous_const.mul (Complex.continuous_normSq.comp ?_))
    by_cases hk : ∀ i, K i k = 0
    · simp only [fluctuation_zero hk]
      exact continuous_const
    · simp only [fluctuation_of hk]
      exact (continuous_apply k).comp (continuous_apply i)
  exact (h1.comp hp).comp_continuousOn h0

omit [Fintype X] in
theorem inner_young {w : ι → ℝ} (hw : ∀ k, 0 < w k) {a : ℝ} (ha : 0 < a) (x y : ι → ℂ) :
    Spec.inner w x y ≤ a / 2 * Spec.inner w x x + Spec.inner w y y / (2 * a) := by
  rw [inner_self, inner_self, Spec.inner, Finset.mul_sum, Finset.sum_div, ← Finset.sum_add_distrib]
  refine Finset.sum_le_sum fun k _ => ?_
  have h1 : ((starRingEnd ℂ) (x k) * y k).re ≤ a / 2 * Complex.normSq (x k) + Complex.normSq (y k) / (2 * a) := by
    simp only [mul_re, conj_re, conj_im, Complex.normSq_apply]
    have e1 := sq_nonneg (a * (x k).re - (y k).re)
    have e2 := sq_nonneg (a * (x k).im - (y k).im)
    rw [← sub_le_iff_le_add', le_div_iff₀ (by positivity)]
    nlinarith
  have h2 := mul_le_mul_of_nonneg_left h1 (hw k).le
  rw [mul_add, mul_left_comm, ← mul_div_assoc] at h2
  exact h2

omit [Fintype X] in
/-- Work of a force without mean on a velocity. -/
theorem power_young {w : ι → ℝ} (hw : ∀ k, 0 < w k) (K : Fin d → ι → ℝ) {a : ℝ} (ha : 0 < a) (u S : SArr d ι) (hS : ZeroMean K S) :
    power w u S ≤ a * energy w (fun i => fluctuation K (u i)) + power w S S / (2 * a) := by
  have h := Finset.sum_le_sum fun i (_ : i ∈ Finset.univ) => inner_young hw ha (fluctuation K (u i)) (S i)
  rw [Finset.sum_add_distrib, ← Finset.mul_sum, ← Finset.sum_div] at h
  rw [energy_eq_inner, power_inner, power_inner, ← Finset.sum_congr rfl fun i _ => inner_fluctuation w K (u i) (S i) fun k hk => hS k hk i]
  linarith

omit [Fintype ι] [Fintype X] in
/-- Coefficients whose time derivative vanishes do not change. -/
theorem solves_constant {E : Type*} [NormedAddCommGroup E] [NormedSpace ℝ E] {f : E → E} {U : ℝ → E} (hU : Solves f U) (p : E →L[ℝ] ℂ)
    (h : ∀ t, 0 ≤ t → p (f (U t)) = 0) (t : ℝ) (ht : 0 ≤ t) : p (U t) = p (U 0) := by
  have hd : ∀ s ∈ Set.Ico (0 : ℝ) t, HasDerivWithinAt (fun s => p (U s)) 0 (Set.Ici s) s := fun s hs => by
    have := p.hasFDerivAt.comp_hasDerivWithinAt s (hU s hs.1)
    rw [h s hs.1] at this
    exact this.mono (Set.Ici_subset_Ici.2 hs.1)
  have hc : ContinuousOn (fun s => p (U s)) (Set.Icc 0 t) := fun s hs =>
    p.continuous.continuousAt.comp_continuousWithinAt (((hU s hs.1).continuousWithinAt).mono Set.Icc_subset_Ici_self)
  exact constant_of_has_deriv_right_zero hc hd t ⟨ht, le_rfl⟩

omit [Fintype X] in
/-- A flow with the energy balance of a viscous fluid and a force without mean. -/
theorem flow_decay {w : ι → ℝ} (hw : ∀ k, 0 < w k) {K : Fin d → ι → ℝ} {q nu : ℝ} (hq0 : 0 < q) (hnu : 0 < nu)
    (hq : ∀ k, (¬∀ i, K i k = 0) → q ≤ Spec.normSq (at' K k)) {S : SArr d ι} (hS : ZeroMean K S) {f : SArr d ι → SArr d ι} {U : ℝ → SArr d ι}
    (hU : Solves f U) (hf : ∀ t, 0 ≤ t → ZeroMean K (f (U t)))
    (hE : ∀ t, 0 < t → HasDerivAt (fun s => energy w (U s)) (-nu * dissipation w K (U t) + power w (U t) S) t) (t : ℝ) (ht : 0 ≤ t) :
    (∀ i k, (∀ j, K j k = 0) → U t i k = U 0 i k) ∧
    energy w (fun i => fluctuation K (U t i)) ≤ Real.exp (-(nu * q * t)) * energy w (fun i => fluctuation K (U 0 i)) +
      power w S S / (2 * (nu * q) ^ 2) ∧
    (S = 0 → energy w (fun i => fluctuation K (U t i)) ≤ Real.exp (-(2 * nu * q * t)) * energy w (fun i => fluctuation K (U 0 i))) := by
  have ha : 0 < nu * q := mul_pos hnu hq0
  have hder : ∀ t, 0 < t → ∀ i k, HasDerivAt (fun s => U s i k) (f (U t) i k) t := fun t ht i k =>
    hasDerivAt_pi.1 (hasDerivAt_pi.1 (solves_hasDerivAt hU ht) i) k
  have hd : ∀ t, 0 < t → HasDerivAt (fun s => energy w fun i => fluctuation K (U s i)) (-nu * dissipation w K (U t) + power w (U t) S) t := fun t ht => by
    rw [← (energy_hasDeriv w U _ t (hder t ht)).unique (hE t ht)]
    exact fluctuation_energy_hasDeriv w K U _ t (hder t ht) (hf t ht.le)
  have hc := continuousOn_fluctuation hU w K id continuous_id
  have hdis : ∀ t, -nu * dissipation w K (U t) ≤ -(2 * (nu * q) * energy w fun i => fluctuation K (U t i)) := fun t => by
    have := mul_le_mul_of_nonneg_left (dissipation_poincare hw hq (U t)) hnu.le
    linarith
  refine ⟨fun i k hk => ?_, ?_, fun hS0 => ?_⟩
  · exact solves_constant hU ((ContinuousLinearMap.proj (R := ℝ) (φ := fun _ : ι => ℂ) k).comp (ContinuousLinearMap.proj (R := ℝ) (φ := fun _ : Fin d => ι → ℂ) i))
      (fun t ht => hf t ht k hk i) t ht
  · have h := decay_le ha hc hd (e := power w S S / (2 * (nu * q))) (fun t ht => by
      have h1 := power_young hw K ha (U t) S hS
      have h2 := hdis t
      simp only [id]
      linarith) t ht
    refine h.trans ?_
    have h1 : power w S S / (2 * (nu * q)) / (nu * q) = power w S S / (2 * (nu * q) ^ 2) := by rw [div_div]; congr 1; ring
    rw [h1]
    have h2 : 0 ≤ power w S S / (2 * (nu * q) ^ 2) := div_nonneg (power_self_nonneg hw S) (by positivity)
    have h3 := mul_nonneg h2 (Real.exp_pos (-(nu * q * t))).le
    simp only [id]
    linarith
  · have h := decay_le (a := 2 * (nu * q)) (e := 0) (by linarith) hc hd (fun t ht => by
      have h2 := hdis t
      have h3 : power w (U t) S = 0 := by rw [hS0, power_inner]; simp [Spec.inner]
      rw [h3]
      simp only [id]
      linarith) t ht
    simp only [id, zero_div, zero_mul, add_zero] at h
    rwa [show 2 * nu * q * t = 2 * (nu * q) * t by ring]

/-- The smallest nonzero wavenumber of a box with sides up to `l`. -/
theorem scaledWaves_lower {n : ℕ} (N : Fin (n + 1) → ℕ) {L : Fin (n + 1) → ℝ} (hL : ∀ i, 0 < L i) {l : ℝ} (hl : ∀ i, L i ≤ l) (k : RModes N)
    (hk : ¬∀ i, scaledWaves N L i k = 0) : (2 * Real.pi / l) ^ 2 ≤ Spec.normSq (at' (scaledWaves N L) k) := by
  push Not at hk
  obtain ⟨i, hi⟩ := hk
  refine le_trans ?_ (Finset.single_le_sum (fun j _ => sq_nonneg (scaledWaves N L j k)) (Finset.mem_univ i))
  have hw : waves N i k ≠ 0 := fun h => hi (by simp [scaledWaves, h])
  have h1 : (1 : ℝ) ≤ (waves N i k : ℝ) ^ 2 := by
    have : (1 : ℤ) ≤ (waves N i k) ^ 2 := by
      have := sq_pos_of_ne_zero hw
      omega
    exact_mod_cast this
  have h2 : 2 * Real.pi / l ≤ 2 * Real.pi / L i := div_le_div_of_nonneg_left (by positivity) (hL i) (hl i)
  have h3 : 0 ≤ 2 * Real.pi / l := div_nonneg (by positivity) ((hL i).le.trans (hl i))
  have h4 : (2 * Real.pi / l) ^ 2 ≤ (2 * Real.pi / L i) ^ 2 := pow_le_pow_left₀ h3 h2 2
  simp only [scaledWaves, mul_pow]
  nlinarith [sq_nonneg (2 * Real.pi / L i)]

/-! ## The mean of the right-hand sides -/

omit [Fintype ι] [Fintype X] in
theorem rhsNS_zeroMean (c : Ctx d ι X) (conv : SArr d ι → SArr d ι → SArr d ι) (rhs u : SArr d ι) (hS : ZeroMean c.K c.Source)
    (h : ∀ i k, (∀ j, c.K j k = 0) → keeps c.mask k = true → conv rhs u i k = 0) : ZeroMean c.K (rhsNS c conv rhs u) := by
  intro k hk i
  have h2 : K2 c.K k = 0 := (K2_eq_zero _ _).2 hk
  have h3 : ∀ i, maskNyquist c.mask (conv rhs u) i k = 0 := fun i => by
    rw [maskNyquist_keeps]
    split_ifs with hm
    · exact h i k hk hm
    · rfl
  simp [rhsNS, ComputeRHS, add_pressure_diffusion, hk i, h2, h3, hS k hk i]

section
variable {T : Space ι X} (H : Additive T) {w : ι → ℝ} (hw : ∀ k, w k ≠ 0) {a : ℝ} (hadj : Adjoint w a T.forward T.backward)
  {mask : Option (ι → Bool)}
include H hw hadj

/-- Without aliasing `(u . grad) u` has no mean. -/
theorem advection_mean {K : Fin d → ι → ℝ} (hL : Leibniz T.backward K (Vanishes mask)) {u : SArr d ι} (hm : ∀ i, Vanishes mask (u i)) (hu : Solenoidal K u)
    (i : Fin d) (k : ι) (hk : ∀ j, K j k = 0) (hkeep : keeps mask k = true) : advection T.forward T.backward K u i k = 0 := by
  rw [← divergence_eq_advection H hw hadj hL hm hu i k hkeep]
  simp [divergenceForm, hk]

theorem conv_mean {K : Fin 3 → ι → ℝ} (hL : Leibniz T.backward K (Vanishes mask)) {u : SArr 3 ι} (hm : ∀ i, Vanishes mask (u i)) (hu : Solenoidal K u)
    (name : String) (conv) (hname : (getConvection name : Option (Scratch 3 ι X → SArr 3 ι → SArr 3 ι → Space ι X → (Fin 3 → ι → ℝ) → SArr 3 ι)) = some conv)
    (s : Scratch 3 ι X) (rhs : SArr 3 ι) (i : Fin 3) (k : ι) (hk : ∀ j, K j k = 0) (hkeep : keeps mask k = true) : conv s rhs u T K i k = 0 := by
  have hf := C06_convection_forms (ι := ι) (X := X) name
  rw [hname] at hf
  have h1 := advection_mean H hw hadj hL hm hu i k hk hkeep
  have h2 : divergenceForm T.forward T.backward K u i k = 0 := by simp [divergenceForm, hk]
  rcases hf s rhs u T K i k with ⟨_, e⟩ | ⟨_, e⟩ | ⟨_, e⟩ | ⟨_, e⟩
  · rw [e, h1, neg_zero]
  · rw [e, h2, neg_zero]
  · rw [e, h1, h2]; simp
  · rw [e, lamb_eq_advection H hw hadj hL hm i k hkeep, h1, hk i]; simp

theorem conv2D_mean {K : Fin 2 → ι → ℝ} (hL : Leibniz T.backward K (Vanishes mask)) {u : SArr 2 ι} (hm : ∀ i, Vanishes mask (u i)) (hu : Solenoidal K u)
    (i : Fin 2) (k : ι) (hk : ∀ j, K j k = 0) (hkeep : keeps mask k = true) : lamb2 T.forward T.backward K u i k = 0 := by
  rw [lamb2_eq_advection H hw hadj hL hm i k hkeep, advection_mean H hw hadj hL hm hu i k hk hkeep, hk i]; simp

end

/-! ## The solvers -/

section
variable {n : ℕ} {N : Fin (n + 1) → ℕ} {L : Fin (n + 1) → ℝ}

/-- The statement of C121 for a solution `V` on `[0, T]` of equations with viscosity `nu` and force `S` in a box with sides up to `l`: the mean does not change,
the energy of the rest stays bounded by a constant independent of time, and without force it decays exponentially. -/
def DiesOut (N : Fin (n + 1) → ℕ) (L : Fin (n + 1) → ℝ) (l nu : ℝ) (S : SArr d (RModes N)) (T : ℝ) (V : ℝ → SArr d (RModes N)) : Prop :=
  ∀ t ∈ Set.Icc 0 T, (∀ i k, (∀ j, scaledWaves N L j k = 0) → V t i k = V 0 i k) ∧
    energy (rweight N) (fun i => fluctuation (scaledWaves N L) (V t i)) ≤
      Real.exp (-(nu * (2 * Real.pi / l) ^ 2 * t)) * energy (rweight N) (fun i => fluctuation (scaledWaves N L) (V 0 i)) +
        power (rweight N) S S / (2 * (nu * (2 * Real.pi / l) ^ 2) ^ 2) ∧
    (S = 0 → energy (rweight N) (fun i => fluctuation (scaledWaves N L) (V t i)) ≤
      Real.exp (-(2 * nu * (2 * Real.pi / l) ^ 2 * t)) * energy (rweight N) (fun i => fluctuation (scaledWaves N L) (V 0 i)))

end

/-- C121.  NS with the 3/2-rule, any of the four forms of convection, any mesh, box, positive viscosity, admissible force without mean and start. -/
theorem C121_ns (N : Fin 3 → ℕ) (hN : ∀ i, 0 < N i) (L : Fin 3 → ℝ) (hL : ∀ i, 0 < L i) (l : ℝ) (hl : ∀ i, L i ≤ l) (nu : ℝ) (hnu : 0 < nu)
    (Source : SArr 3 (RModes N)) (hs : Solenoidal (scaledWaves N L) Source) (hsm : ∀ i, Unmasked N (Source i)) (hs0 : ZeroMean (scaledWaves N L) Source)
    (s : Scratch 3 (RModes N) (Grid fun i => padded (N i))) (name : String) (conv) (hname : getConvection name = some conv) (rhs : SArr 3 (RModes N))
    (T : ℝ) (V : ℝ → SArr 3 (RModes N))
    (hV : SolvesOn (rhsNS (padCtx N L nu Source) (fun r u => conv s r u (padCtx N L nu Source).Tp (padCtx N L nu Source).K) rhs) T V)
    (h0 : Solenoidal (scaledWaves N L) (V 0)) (hm : ∀ i, Unmasked N (V 0 i)) : DiesOut N L l nu Source T V := by
  obtain ⟨U, hU0, hU, hUa, hUe, hUu⟩ := C92_ns_padded N hN L nu hnu.le Source hs hsm s name conv hname rhs (V 0) h0 hm
  have hl0 : 0 < l := (hL 0).trans_le (hl 0)
  intro t ht
  have h := flow_decay (rweight_pos N) (by positivity : 0 < (2 * Real.pi / l) ^ 2) hnu (scaledWaves_lower N hL hl) hs0 hU (fun t ht =>
    rhsNS_zeroMean (padCtx N L nu Source) _ rhs (U t) hs0 fun i k hk hkeep =>
      conv_mean (padCtx_additive N L nu Source) (fun k => (rweight_pos N k).ne') (padCtx_adjoint N L nu Source) (padCtx_leibniz N hN L nu Source)
        (hUa t).2 (hUa t).1 name conv hname s rhs i k hk hkeep) hUe t ht.1
  rwa [hU0, ← hUu T V hV rfl t ht] at h

/-- C121.  NS2D with the 3/2-rule. -/
theorem C121_ns2d (N : Fin 2 → ℕ) (hN : ∀ i, 0 < N i) (L : Fin 2 → ℝ) (hL : ∀ i, 0 < L i) (l : ℝ) (hl : ∀ i, L i ≤ l) (nu : ℝ) (hnu : 0 < nu)
    (Source : SArr 2 (RModes N)) (hs : Solenoidal (scaledWaves N L) Source) (hsm : ∀ i, Unmasked N (Source i)) (hs0 : ZeroMean (scaledWaves N L) Source)
    (w0 : RModes N → ℂ) (rhs : SArr 2 (RModes N)) (T : ℝ) (V : ℝ → SArr 2 (RModes N))
    (hV : SolvesOn (rhsNS (padCtx N L nu Source) (fun r u => conv2DVortex w0 r u (padCtx N L nu Source).Tp (padCtx N L nu Source).K) rhs) T V)
    (h0 : Solenoidal (scaledWaves N L) (V 0)) (hm : ∀ i, Unmasked N (V 0 i)) : DiesOut N L l nu Source T V := by
  obtain ⟨U, hU0, hU, hUa, hUe, hUu⟩ := C92_ns2d (padCtx N L nu Source) (rspace_linear N _) w0 (rweight N) (rweight_pos N) _ (padCtx_adjoint N L nu Source) hnu.le hs hsm
    rhs (V 0) h0 hm
  have hl0 : 0 < l := (hL 0).trans_le (hl 0)
  intro t ht
  have h := flow_decay (rweight_pos N) (by positivity : 0 < (2 * Real.pi / l) ^ 2) hnu (scaledWaves_lower N hL hl) hs0 hU (fun t ht =>
    rhsNS_zeroMean (padCtx N L nu Source) _ rhs (U t) hs0 fun i k hk hkeep => by
      rw [conv2D_lamb2]
      exact conv2D_mean (padCtx_additive N L nu Source) (fun k => (rweight_pos N k).ne') (padCtx_adjoint N L nu Source) (padCtx_leibniz N hN L nu Source)
        (hUa t).2 (hUa t).1 i k hk hkeep) hUe t ht.1
  rwa [hU0, ← hUu T V hV rfl t ht] at h

theorem flowSpace_zeroMean {N : Fin 3 → ℕ} {L : Fin 3 → ℝ} (hL : ∀ i, 0 < L i) {u : SArr 3 (RModes N)} (hu : u ∈ flowSpace N L) :
    ZeroMean (scaledWaves N L) u := fun k hk => hu.1.1.2 k ((scaled_zero N L (fun i => (hL i).ne') k).1 hk)

/-- C121.  NS with the Vortex form and any padding, also without dealiasing (`M = N`): real flows without mean. -/
theorem C121_vortex (N M : Fin 3 → ℕ) (hN : ∀ i, 0 < N i) (hNM : ∀ i, N i ≤ M i) (L : Fin 3 → ℝ) (hL : ∀ i, 0 < L i) (l : ℝ) (hl : ∀ i, L i ≤ l) (nu : ℝ)
    (hnu : 0 < nu) (Source : SArr 3 (RModes N)) (hS : Source ∈ flowSpace N L) (s : Scratch 3 (RModes N) (Grid M)) (conv)
    (hname : getConvection "Vortex" = some conv) (rhs : SArr 3 (RModes N)) (T : ℝ) (V : ℝ → SArr 3 (RModes N))
    (hV : SolvesOn (rhsNS (fftCtx N M L nu (some (nyquistMask N)) Source) (fun r u => conv s r u (rspace N M) (scaledWaves N L)) rhs) T V)
    (h0 : V 0 ∈ flowSpace N L) : DiesOut N L l nu Source T V ∧ ∀ t ∈ Set.Icc 0 T, V t ∈ flowSpace N L := by
  have hcv : conv = convVortex := by
    have : getConvection "Vortex" = some (convVortex (ι := RModes N) (X := Grid M)) := by simp [getConvection]
    rw [this] at hname
    exact (Option.some.inj hname).symm
  subst hcv
  set c := fftCtx N M L nu (some (nyquistMask N)) Source with hc
  have hadj : Adjoint (rweight N) (1 / Fintype.card (Grid M)) c.Tp.forward c.Tp.backward := dft_adjoint (kernel (waves N) M) (rweight N)
  obtain ⟨U, hU0, hU, hUa, hUe, hUu⟩ := C92_ns c (rspace_linear N M) s (rweight N) (rweight_pos N) _ hadj hnu.le hS.1.1.1 (fun i k hk => hS.2 k hk i) "Vortex" convVortex hname
    (fun h => absurd h (by decide)) rhs (V 0) h0.1.1.1 (fun i k hk => h0.2 k hk i)
  obtain ⟨U', hU'0, hU', hU'f, -, hU'u, -⟩ := C92_vv N M hN hNM L (fun i => (hL i).ne') nu hnu.le Source hS s s rhs rhs (V 0) h0
  have hflow : ∀ t, 0 ≤ t → U t ∈ flowSpace N L := fun t ht => by
    rw [hU'u t U (hU.on t) hU0 t ⟨ht, le_rfl⟩]
    exact hU'f t
  have hl0 : 0 < l := (hL 0).trans_le (hl 0)
  refine ⟨fun t ht => ?_, fun t ht => ?_⟩
  · have h := flow_decay (rweight_pos N) (by positivity : 0 < (2 * Real.pi / l) ^ 2) hnu (scaledWaves_lower N hL hl) (flowSpace_zeroMean hL hS) hU (fun t ht =>
      flowSpace_zeroMean hL (flowSpace_invariant N M hN hNM L (fun i => (hL i).ne') nu Source hS s rhs (U t) (hflow t ht))) hUe t ht.1
    rwa [hU0, ← hUu T V hV rfl t ht] at h
  · rw [hUu T V hV rfl t ht]
    exact hflow t ht.1

/-- C121.  VV with any padding: the velocity recovered from the vorticity. -/
theorem C121_vv (N M : Fin 3 → ℕ) (hN : ∀ i, 0 < N i) (hNM : ∀ i, N i ≤ M i) (L : Fin 3 → ℝ) (hL : ∀ i, 0 < L i) (l : ℝ) (hl : ∀ i, L i ≤ l) (nu : ℝ)
    (hnu : 0 < nu) (Source : SArr 3 (RModes N)) (hS : Source ∈ flowSpace N L) (s : Scratch 3 (RModes N) (Grid M)) (rhs w u0 : SArr 3 (RModes N))
    (h0 : u0 ∈ flowSpace N L) (T : ℝ) (W : ℝ → SArr 3 (RModes N))
    (hW : SolvesOn (rhsVV (fftCtx N M L nu (some (nyquistMask N)) (Spec.curl (scaledWaves N L) Source)) s rhs) T W)
    (hW0 : W 0 = Spec.curl (scaledWaves N L) u0) :
    DiesOut N L l nu Source T fun t => velocityHat w (W t) (K_over_K2 (scaledWaves N L)) := by
  obtain ⟨U, hU0, hU, hUf, -, -, hUu⟩ := C92_vv N M hN hNM L (fun i => (hL i).ne') nu hnu.le Source hS s s rhs rhs u0 h0
  have hrec : ∀ t ∈ Set.Icc 0 T, velocityHat w (W t) (K_over_K2 (scaledWaves N L)) = U t := fun t ht => by
    rw [hUu T W hW hW0 t ht]
    exact C08_velocity_of_curl w (U t) _ (hUf t).1.1.1 (flowSpace_zeroMean hL (hUf t))
  intro t ht
  have h := (C121_vortex N M hN hNM L hL l hl nu hnu Source hS s convVortex (by simp [getConvection]) rhs T U (hU.on T) (hUf 0)).1 t ht
  simp only [hrec t ht, hrec 0 ⟨le_rfl, ht.1.trans ht.2⟩]
  exact h

/-- C121.  MHD with the 3/2-rule: the means of velocity and magnetic field do not change, the energy of the rest decays. -/
theorem C121_mhd (N : Fin 3 → ℕ) (hN : ∀ i, 0 < N i) (L : Fin 3 → ℝ) (hL : ∀ i, 0 < L i) (l : ℝ) (hl : ∀ i, L i ≤ l) (nu eta : ℝ) (hnu : 0 < nu) (heta : 0 < eta)
    (rhs : SArr 3 (RModes N) × SArr 3 (RModes N)) (T : ℝ) (V : ℝ → SArr 3 (RModes N) × SArr 3 (RModes N))
    (hV : SolvesOn (rhsMHD (padCtx N L nu 0) eta (fun _ ub => convMHD ub (padCtx N L nu 0).Tp (padCtx N L nu 0).K) rhs) T V)
    (h1 : Solenoidal (scaledWaves N L) (V 0).1) (h2 : Solenoidal (scaledWaves N L) (V 0).2) (hm1 : ∀ i, Unmasked N ((V 0).1 i))
    (hm2 : ∀ i, Unmasked N ((V 0).2 i)) :
    ∀ t ∈ Set.Icc 0 T, (∀ i k, (∀ j, scaledWaves N L j k = 0) → (V t).1 i k = (V 0).1 i k ∧ (V t).2 i k = (V 0).2 i k) ∧
      energy (rweight N) (fun i => fluctuation (scaledWaves N L) ((V t).1 i)) + energy (rweight N) (fun i => fluctuation (scaledWaves N L) ((V t).2 i)) ≤
        Real.exp (-(2 * min nu eta * (2 * Real.pi / l) ^ 2 * t)) *
          (energy (rweight N) (fun i => fluctuation (scaledWaves N L) ((V 0).1 i)) + energy (rweight N) (fun i => fluctuation (scaledWaves N L) ((V 0).2 i))) := by
  obtain ⟨U, hU0, hU, hUa, hUe, hUu⟩ := C92_mhd_padded N hN L nu eta hnu.le heta.le rhs (V 0) h1 h2 hm1 hm2
  set f := rhsMHD (padCtx N L nu 0) eta (fun _ ub => convMHD ub (padCtx N L nu 0).Tp (padCtx N L nu 0).K) rhs with hf
  set K := scaledWaves N L with hK
  set w := rweight N with hw
  have hl0 : 0 < l := (hL 0).trans_le (hl 0)
  have hq0 : 0 < (2 * Real.pi / l) ^ 2 := by positivity
  have hq := scaledWaves_lower N hL hl
  set q := (2 * Real.pi / l) ^ 2 with hqd
  have hzero : ∀ ub, ZeroMean K (f ub).1 ∧ ZeroMean K (f ub).2 := fun ub => by
    constructor <;> intro k hk i
    all_goals
      have h2 : K2 (padCtx N L nu 0).K k = 0 := (K2_eq_zero _ _).2 hk
      have hk' : ∀ j, (padCtx N L nu 0).K j k = 0 := hk
      rcases hmask : (padCtx N L nu 0).mask with _ | mk <;>
        simp [hf, rhsMHD, add_pressure_diffusionMHD, convMHD, divergenceConvection, set_Elsasser, maskNyquist, hmask, hk', h2]
  have hd1 : ∀ t, 0 < t → ∀ i k, HasDerivAt (fun s => (U s).1 i k) ((f (U t)).1 i k) t := fun t ht i k =>
    hasDerivAt_pi.1 (hasDerivAt_pi.1 ((ContinuousLinearMap.fst ℝ (SArr 3 (RModes N)) (SArr 3 (RModes N))).hasFDerivAt.comp_hasDerivAt t (solves_hasDerivAt hU ht)) i) k
  have hd2 : ∀ t, 0 < t → ∀ i k, HasDerivAt (fun s => (U s).2 i k) ((f (U t)).2 i k) t := fun t ht i k =>
    hasDerivAt_pi.1 (hasDerivAt_pi.1 ((ContinuousLinearMap.snd ℝ (SArr 3 (RModes N)) (SArr 3 (RModes N))).hasFDerivAt.comp_hasDerivAt t (solves_hasDerivAt hU ht)) i) k
  have hd : ∀ t, 0 < t → HasDerivAt (fun s => energy w (fun i => fluctuation K ((U s).1 i)) + energy w (fun i => fluctuation K ((U s).2 i)))
      (-nu * dissipation w K (U t).1 - eta * dissipation w K (U t).2) t := fun t ht => by
    rw [← ((energy_hasDeriv w (fun s => (U s).1) _ t (hd1 t ht)).add (energy_hasDeriv w (fun s => (U s).2) _ t (hd2 t ht))).unique (hUe t ht)]
    exact (fluctuation_energy_hasDeriv w K (fun s => (U s).1) _ t (hd1 t ht) (hzero _).1).add
      (fluctuation_energy_hasDeriv w K (fun s => (U s).2) _ t (hd2 t ht) (hzero _).2)
  have hc : ContinuousOn (fun s => energy w (fun i => fluctuation K ((U s).1 i)) + energy w (fun i => fluctuation K ((U s).2 i))) (Set.Ici 0) :=
    (continuousOn_fluctuation hU w K Prod.fst continuous_fst).add (continuousOn_fluctuation hU w K Prod.snd continuous_snd)
  have hmin : 0 < min nu eta := lt_min hnu heta
  have hpos : ∀ u : SArr 3 (RModes N), 0 ≤ dissipation w K u := dissipation_nonneg w (fun k => (rweight_pos N k).le) K
  intro t ht
  rw [hUu T V hV rfl t ht]
  constructor
  · intro i k hk
    have e1 := solves_constant hU (((ContinuousLinearMap.proj (R := ℝ) (φ := fun _ : RModes N => ℂ) k).comp
      (ContinuousLinearMap.proj (R := ℝ) (φ := fun _ : Fin 3 => RModes N → ℂ) i)).comp (ContinuousLinearMap.fst ℝ (SArr 3 (RModes N)) (SArr 3 (RModes N))))
      (fun t _ => (hzero (U t)).1 k hk i) t ht.1
    have e2 := solves_constant hU (((ContinuousLinearMap.proj (R := ℝ) (φ := fun _ : RModes N => ℂ) k).comp
      (ContinuousLinearMap.proj (R := ℝ) (φ := fun _ : Fin 3 => RModes N → ℂ) i)).comp (ContinuousLinearMap.snd ℝ (SArr 3 (RModes N)) (SArr 3 (RModes N))))
      (fun t _ => (hzero (U t)).2 k hk i) t ht.1
    rw [hU0] at e1 e2
    exact ⟨e1, e2⟩
  · have h := decay_le (a := 2 * (min nu eta * q)) (e := 0) (by positivity) hc hd (fun t ht => by
      have p1 := mul_le_mul_of_nonneg_left (dissipation_poincare (rweight_pos N) hq (U t).1) hmin.le
      have p2 := mul_le_mul_of_nonneg_left (dissipation_poincare (rweight_pos N) hq (U t).2) hmin.le
      have p3 := mul_le_mul_of_nonneg_right (min_le_left nu eta) (hpos (U t).1)
      have p4 := mul_le_mul_of_nonneg_right (min_le_right nu eta) (hpos (U t).2)
      simp only [← hw, ← hK] at p1 p2 ⊢
      linarith) t ht.1
    simp only [zero_div, zero_mul, add_zero, hU0] at h
    rwa [show 2 * min nu eta * q * t = 2 * (min nu eta * q) * t by ring]

/-- C121.  Bq2D with the 3/2-rule, any Richardson number: the mean density does not change and its fluctuations decay.  If the density has no mean, the mean
velocity does not change and the energy of the rest stays bounded for all times. -/
theorem C121_bq (N : Fin 2 → ℕ) (hN : ∀ i, 0 < N i) (L : Fin 2 → ℝ) (hL : ∀ i, 0 < L i) (l : ℝ) (hl : ∀ i, L i ≤ l) (nu Ri Pr : ℝ) (hnu : 0 < nu) (hPr : 0 < Pr)
    (w0 : SArr 2 (RModes N)) (rhs : SArr 2 (RModes N) × (RModes N → ℂ)) (T : ℝ) (V : ℝ → SArr 2 (RModes N) × (RModes N → ℂ))
    (hV : SolvesOn (rhsBq (padCtx N L nu 0) Ri Pr (fun r ur => convBq w0 r ur (padCtx N L nu 0).Tp (padCtx N L nu 0).K) rhs) T V)
    (h1 : Solenoidal (scaledWaves N L) (V 0).1) (hm1 : ∀ i, Unmasked N ((V 0).1 i)) (hm2 : Unmasked N (V 0).2) :
    ∀ t ∈ Set.Icc 0 T, (∀ k, (∀ j, scaledWaves N L j k = 0) → (V t).2 k = (V 0).2 k) ∧
      variance (rweight N) (fluctuation (scaledWaves N L) (V t).2) ≤
        Real.exp (-(2 * (nu / Pr) * (2 * Real.pi / l) ^ 2 * t)) * variance (rweight N) (fluctuation (scaledWaves N L) (V 0).2) ∧
      ((∀ k, (∀ j, scaledWaves N L j k = 0) → (V 0).2 k = 0) →
        (∀ i k, (∀ j, scaledWaves N L j k = 0) → (V t).1 i k = (V 0).1 i k) ∧
        energy (rweight N) (fun i => fluctuation (scaledWaves N L) ((V t).1 i)) ≤
          Real.exp (-(nu * (2 * Real.pi / l) ^ 2 * t)) * energy (rweight N) (fun i => fluctuation (scaledWaves N L) ((V 0).1 i)) +
            Ri ^ 2 * variance (rweight N) (V 0).2 / (nu * (2 * Real.pi / l) ^ 2) ^ 2) := by
  obtain ⟨U, hU0, hU, hUa, hUe, hUu⟩ := C92_bq_padded N hN L nu Ri Pr hnu.le hPr.le w0 rhs (V 0) h1 hm1 hm2
  set f := rhsBq (padCtx N L nu 0) Ri Pr (fun r ur => convBq w0 r ur (padCtx N L nu 0).Tp (padCtx N L nu 0).K) rhs with hf
  set K := scaledWaves N L with hK
  set w := rweight N with hw
  have hl0 : 0 < l := (hL 0).trans_le (hl 0)
  have hq0 : 0 < (2 * Real.pi / l) ^ 2 := by positivity
  have hq := scaledWaves_lower N hL hl
  set q := (2 * Real.pi / l) ^ 2 with hqd
  have hka : 0 < nu / Pr := div_pos hnu hPr
  have hwp : ∀ k, 0 < w k := rweight_pos N
  have hz2 : ∀ ur k, (∀ j, K j k = 0) → (f ur).2 k = 0 := fun ur k hk => by
    have h2 : K2 (padCtx N L nu 0).K k = 0 := (K2_eq_zero _ _).2 hk
    have hk' : ∀ j, (padCtx N L nu 0).K j k = 0 := hk
    simp only [hf, rhsBq, add_pressure_diffusionBq, convBq_eq, maskNyquist_keeps, h2]
    simp [fluxDiv, hk']
  have hz1 : ∀ t k, (∀ j, K j k = 0) → (U t).2 k = 0 → ∀ i, (f (U t)).1 i k = 0 := fun t k hk hr i => by
    have h2 : K2 (padCtx N L nu 0).K k = 0 := (K2_eq_zero _ _).2 hk
    have hk' : ∀ j, (padCtx N L nu 0).K j k = 0 := hk
    have h3 : ∀ i, maskNyquist (padCtx N L nu 0).mask (lamb2 (padCtx N L nu 0).Tp.forward (padCtx N L nu 0).Tp.backward (padCtx N L nu 0).K (U t).1) i k = 0 := fun i => by
      rw [maskNyquist_keeps]
      split_ifs with hm
      · exact conv2D_mean (padCtx_additive N L nu 0) (fun k => (rweight_pos N k).ne') (padCtx_adjoint N L nu 0) (padCtx_leibniz N hN L nu 0)
          (hUa t).2.1 (hUa t).1 i k hk hm
      · rfl
    fin_cases i <;> simp [hf, rhsBq, add_pressure_diffusionBq, convBq_eq, h2, h3, hk', hr]
  have hd1 : ∀ t, 0 < t → ∀ i k, HasDerivAt (fun s => (U s).1 i k) ((f (U t)).1 i k) t := fun t ht i k =>
    hasDerivAt_pi.1 (hasDerivAt_pi.1 ((ContinuousLinearMap.fst ℝ (SArr 2 (RModes N)) (RModes N → ℂ)).hasFDerivAt.comp_hasDerivAt t (solves_hasDerivAt hU ht)) i) k
  have hd2 : ∀ t, 0 < t → ∀ k, HasDerivAt (fun s => (U s).2 k) ((f (U t)).2 k) t := fun t ht k =>
    hasDerivAt_pi.1 ((ContinuousLinearMap.snd ℝ (SArr 2 (RModes N)) (RModes N → ℂ)).hasFDerivAt.comp_hasDerivAt t (solves_hasDerivAt hU ht)) k
  have hmean2 : ∀ t, 0 ≤ t → ∀ k, (∀ j, K j k = 0) → (U t).2 k = (V 0).2 k := fun t ht k hk => by
    have e := solves_constant hU ((ContinuousLinearMap.proj (R := ℝ) (φ := fun _ : RModes N => ℂ) k).comp
      (ContinuousLinearMap.snd ℝ (SArr 2 (RModes N)) (RModes N → ℂ))) (fun t _ => hz2 (U t) k hk) t ht
    rw [hU0] at e
    exact e
  have hvd : ∀ t, 0 < t → HasDerivAt (fun s => variance w (fluctuation K (U s).2)) (-(nu / Pr) * gradSq w K (U t).2) t := fun t ht => by
    have e1 := ((inner_hasDeriv w (fun s => (U s).2) (fun s => (U s).2) _ _ t (hd2 t ht) (hd2 t ht)).const_mul (1 / 2)).unique (hUe t ht).2
    have hfl : ∀ k, HasDerivAt (fun s => fluctuation K (U s).2 k) ((f (U t)).2 k) t := fun k => by
      by_cases hk : ∀ i, K i k = 0
      · simp only [fluctuation_zero hk, hz2 _ k hk]
        exact hasDerivAt_const _ _
      · simp only [fluctuation_of hk]
        exact hd2 t ht k
    refine ((inner_hasDeriv w (fun s => fluctuation K (U s).2) (fun s => fluctuation K (U s).2) _ _ t hfl hfl).const_mul (1 / 2)).congr_deriv ?_
    rw [← e1, inner_symm w (f (U t)).2 (fluctuation K (U t).2), inner_symm w (f (U t)).2 (U t).2, inner_fluctuation w K _ _ (hz2 (U t))]
  have hcU : ContinuousOn U (Set.Ici 0) := fun t ht => (hU t ht).continuousWithinAt
  have hvc : ContinuousOn (fun s => variance w (fluctuation K (U s).2)) (Set.Ici 0) := by
    have h1 : Continuous fun u : SArr 2 (RModes N) × (RModes N → ℂ) => variance w (fluctuation K u.2) := by
      simp only [variance, inner_self]
      refine continuous_const.mul (continuous_finsetSum _ fun k _ => continuous_const.mul (Complex.continuous_normSq.comp ?_))
      by_cases hk : ∀ i, K i k = 0
      · simp only [fluctuation_zero hk]
        exact continuous_const
      · simp only [fluctuation_of hk]
        exact (continuous_apply k).comp continuous_snd
    exact h1.comp_continuousOn hcU
  have hvar : ∀ t, 0 ≤ t → variance w (fluctuation K (U t).2) ≤ Real.exp (-(2 * (nu / Pr) * q * t)) * variance w (fluctuation K (V 0).2) := fun t ht => by
    have h := decay_le (a := 2 * (nu / Pr * q)) (e := 0) (by positivity) hvc hvd (fun t ht => by
      have p := mul_le_mul_of_nonneg_left (gradSq_poincare hwp hq (U t).2) hka.le
      simp only [← hw, ← hK] at p ⊢
      linarith) t ht
    simp only [zero_div, zero_mul, add_zero, hU0] at h
    rwa [show 2 * (nu / Pr) * q * t = 2 * (nu / Pr * q) * t by ring]
  intro t ht
  rw [hUu T V hV rfl t ht]
  refine ⟨fun k hk => hmean2 t ht.1 k hk, hvar t ht.1, fun hr0 => ?_⟩
  have hrz : ∀ t, 0 ≤ t → ∀ k, (∀ j, K j k = 0) → (U t).2 k = 0 := fun t ht k hk => (hmean2 t ht k hk).trans (hr0 k hk)
  have hfl : ∀ t, 0 ≤ t → fluctuation K (U t).2 = (U t).2 := fun t ht => funext fun k => by
    by_cases hk : ∀ i, K i k = 0
    · rw [fluctuation_zero hk, hrz t ht k hk]
    · rw [fluctuation_of hk]
  have hfl0 : fluctuation K (V 0).2 = (V 0).2 := by
    have := hfl 0 le_rfl
    rwa [hU0] at this
  have hvb : ∀ t, 0 ≤ t → variance w (U t).2 ≤ variance w (V 0).2 := fun t ht => by
    have h := hvar t ht
    rw [hfl t ht, hfl0] at h
    have hp : 0 ≤ variance w (V 0).2 := mul_nonneg (by norm_num) (inner_self_nonneg hwp _)
    have he : Real.exp (-(2 * (nu / Pr) * q * t)) ≤ 1 := Real.exp_le_one_iff.2 (neg_nonpos.2 (by positivity))
    nlinarith
  have ha : 0 < nu * q := mul_pos hnu hq0
  have hder : ∀ t, 0 < t → HasDerivAt (fun s => energy w fun i => fluctuation K ((U s).1 i)) (-nu * dissipation w K (U t).1 - Ri * Spec.inner w ((U t).1 1) (U t).2) t :=
    fun t ht => by
      rw [← (energy_hasDeriv w (fun s => (U s).1) _ t (hd1 t ht)).unique (hUe t ht).1]
      exact fluctuation_energy_hasDeriv w K (fun s => (U s).1) _ t (hd1 t ht) fun k hk i => hz1 t k hk (hrz t ht.le k hk) i
  constructor
  · intro i k hk
    have e := solves_constant hU (((ContinuousLinearMap.proj (R := ℝ) (φ := fun _ : RModes N => ℂ) k).comp
      (ContinuousLinearMap.proj (R := ℝ) (φ := fun _ : Fin 2 => RModes N → ℂ) i)).comp (ContinuousLinearMap.fst ℝ (SArr 2 (RModes N)) (RModes N → ℂ)))
      (fun t ht => hz1 t k hk (hrz t ht k hk) i) t ht.1
    rw [hU0] at e
    exact e
  · have h := decay_le (a := nu * q) (e := Ri ^ 2 * variance w (V 0).2 / (nu * q)) ha (continuousOn_fluctuation hU w K Prod.fst continuous_fst) hder (fun t ht => by
      have p1 := mul_le_mul_of_nonneg_left (dissipation_poincare hwp hq (U t).1) hnu.le
      have p2 := inner_young hwp ha (fluctuation K ((U t).1 1)) fun k => ((-Ri : ℝ) : ℂ) * (U t).2 k
      rw [inner_fluctuation w K _ _ fun k hk => by rw [hrz t ht.le k hk, mul_zero]] at p2
      have e1 : Spec.inner w ((U t).1 1) (fun k => ((-Ri : ℝ) : ℂ) * (U t).2 k) = -Ri * Spec.inner w ((U t).1 1) (U t).2 := by
        simp only [Spec.inner, Finset.mul_sum]
        refine Finset.sum_congr rfl fun k _ => ?_
        rw [mul_left_comm ((starRingEnd ℂ) ((U t).1 1 k)), re_ofReal_mul]
        ring
      have e2 : Spec.inner w (fun k => ((-Ri : ℝ) : ℂ) * (U t).2 k) (fun k => ((-Ri : ℝ) : ℂ) * (U t).2 k) = Ri ^ 2 * Spec.inner w (U t).2 (U t).2 := by
        simp only [inner_self, Finset.mul_sum, map_mul, normSq_ofReal]
        exact Finset.sum_congr rfl fun k _ => by ring
      rw [e1, e2] at p2
      have e3 : Ri ^ 2 * Spec.inner w (U t).2 (U t).2 / (2 * (nu * q)) = Ri ^ 2 * variance w (U t).2 / (nu * q) := by
        rw [variance]; field_simp
      have p3 : Ri ^ 2 * variance w (U t).2 / (nu * q) ≤ Ri ^ 2 * variance w (V 0).2 / (nu * q) :=
        div_le_div_of_nonneg_right (mul_le_mul_of_nonneg_left (hvb t ht.le) (sq_nonneg _)) ha.le
      have p4 : nu * q / 2 * Spec.inner w (fluctuation K ((U t).1 1)) (fluctuation K ((U t).1 1)) ≤ nu * q * energy w fun i => fluctuation K ((U t).1 i) := by
        rw [energy_eq_inner, Fin.sum_univ_two]
        have := mul_nonneg ha.le (inner_self_nonneg hwp (fluctuation K ((U t).1 0)))
        linarith
      rw [e3] at p2
      simp only [← hw, ← hK] at p1 ⊢
      linarith) t ht.1
    rw [hU0] at h
    refine h.trans ?_
    have h1 : Ri ^ 2 * variance w (V 0).2 / (nu * q) / (nu * q) = Ri ^ 2 * variance w (V 0).2 / (nu * q) ^ 2 := by rw [div_div]; congr 1; ring
    rw [h1]
    have h2 : 0 ≤ Ri ^ 2 * variance w (V 0).2 / (nu * q) ^ 2 :=
      div_nonneg (mul_nonneg (sq_nonneg _) (mul_nonneg (by norm_num) (inner_self_nonneg hwp _))) (by positivity)
    have h3 := mul_nonneg h2 (Real.exp_pos (-(nu * q * t))).le
    linarith

open Demos in
/-- C121.  The flow of demo/TG.py with the 3/2-rule in a box with sides `2 pi p <= l`: the solution of the equations of the solver through the Taylor-Green
vortex exists for all times and its energy, 1/8 at the start, is at most `exp(-2 nu (2 pi / l)^2 t) / 8`. -/
theorem C121_taylor_green (p N : Fin 3 → ℕ) (hp : ∀ i, 0 < p i) (hN : ∀ i, 2 * p i < N i) (L : Fin 3 → ℝ) (hL : ∀ i, L i = 2 * Real.pi * p i) (l : ℝ)
    (hl : ∀ i, L i ≤ l) (nu : ℝ) (hnu : 0 < nu) (s : Scratch 3 (RModes N) (Grid fun i => padded (N i))) (name : String) (conv)
    (hname : getConvection name = some conv) (rhs : SArr 3 (RModes N)) :
    ∃ U : ℝ → SArr 3 (RModes N), U 0 = initialize1 N L ∧
      Solves (rhsNS (padCtx N L nu 0) (fun r u => conv s r u (padCtx N L nu 0).Tp (padCtx N L nu 0).K) rhs) U ∧ energyFourier N (U 0) / 2 = 1 / 8 ∧
      ∀ t, 0 ≤ t → energyFourier N (U t) / 2 ≤ Real.exp (-(2 * nu * (2 * Real.pi / l) ^ 2 * t)) / 8 := by
  obtain ⟨h1, h2, h3, -⟩ := C71_taylor_green p N hp hN L hL 0
  have hN0 : ∀ i, 0 < N i := fun i => lt_of_le_of_lt (Nat.zero_le _) (hN i)
  have hL0 : ∀ i, 0 < L i := fun i => by
    rw [hL i]
    have : (0 : ℝ) < p i := by exact_mod_cast hp i
    positivity
  have hm : ∀ i, Unmasked N (initialize1 N L i) := fun i k hk => by
    obtain rfl : L = box p := funext hL
    rw [initialize1_eq p N hN]
    refine Finset.sum_eq_zero fun j _ => if_neg fun h => ?_
    have hb : nyquistMask N k = true := (nyquistMask_iff N k).2 fun i => by
      have h4 := e3_band p N hN j i
      have h5 : modes p e3 j i = waves N i k := congrFun h i
      rw [h5] at h4
      have h6 := abs_lt.1 (show |2 * waves N i k| < (N i : ℤ) by rwa [abs_mul, abs_two])
      exact h6
    rw [hb] at hk
    exact absurd hk (by decide)
  have hen : ∀ u : SArr 3 (RModes N), energyFourier N u / 2 = energy (rweight N) u := fun u => by
    rw [energyFourier, energy, Finset.sum_comm]
    simp only [Finset.mul_sum]
    rw [Finset.sum_div]
    exact Finset.sum_congr rfl fun k _ => by rw [Finset.sum_div]; exact Finset.sum_congr rfl fun i _ => by ring
  have hstart : energyFourier N (initialize1 N L) / 2 = 1 / 8 := by
    rw [← h3]
    exact adjoint_energy N N _ _ (by rw [initialize1, C70_round_trip N hN0]) rfl
  obtain ⟨U, hU0, hU, -, -, -⟩ := C92_ns_padded N hN0 L nu hnu.le 0 (solenoidal_zero _) (fun _ _ _ => rfl) s name conv hname rhs _ h1 hm
  refine ⟨U, hU0, hU, by rw [hU0, hstart], fun t ht => ?_⟩
  obtain ⟨h4, -, h5⟩ := C121_ns N hN0 L hL0 l hl nu hnu 0 (solenoidal_zero _) (fun _ _ _ => rfl) (fun _ _ _ => rfl) s name conv hname rhs t U (hU.on t)
    (by rw [hU0]; exact h1) (by rw [hU0]; exact hm) t ⟨ht, le_rfl⟩
  have hfl : ∀ u : SArr 3 (RModes N), ZeroMean (scaledWaves N L) u → (fun i => fluctuation (scaledWaves N L) (u i)) = u := fun u hu => by
    funext i k
    by_cases hk : ∀ i, scaledWaves N L i k = 0
    · rw [fluctuation_zero hk, hu k hk i]
    · rw [fluctuation_of hk]
  have h6 := h5 rfl
  rw [hfl (U t) fun k hk i => by rw [h4 i k hk, hU0]; exact h2 k hk i, hU0, hfl _ h2, ← hen, ← hen, hstart] at h6
  linarith

/-- The hypotheses of C121 on the force are met by a force that is not zero: one coefficient in direction `2` at the mode `(1, 0, 0)`. -/
example (N : Fin 3 → ℕ) (hN : ∀ i, 3 ≤ N i) : ∃ S : SArr 3 (RModes N), Solenoidal (scaledWaves N 1) S ∧ (∀ i, Unmasked N (S i)) ∧ ZeroMean (scaledWaves N 1) S ∧
    0 < power (rweight N) S S := by
  let k : RModes N := fun i => ⟨if i = 0 then 1 else 0, by
    have := hN i
    unfold rdim
    split <;> split <;> omega⟩
  have e0 : waves N 0 k = 1 := by
    have := hN 0
    simp only [waves, k]
    rw [if_neg (by decide), if_pos (by simp; omega)]
    simp
  have e1 : waves N 1 k = 0 := by
    have := hN 1
    simp only [waves, k]
    rw [if_neg (by decide), if_pos (by simp; omega)]
    simp
  have e2 : waves N 2 k = 0 := by
    simp only [waves, k]
    rw [if_pos (by decide)]
    simp
  refine ⟨fun i k' => if i = 2 ∧ k' = k then 1 else 0, fun k' => ?_, fun i k' hk' => ?_, fun k' hk' i => ?_, power_self_pos (rweight_pos N) _ fun h => ?_⟩
  · by_cases h : k' = k
    · rw [h]
      simp [dot, at', Fin.sum_univ_three, scaledWaves, e2]
    · simp [dot, at', h]
  · have : k' ≠ k := fun h => by
      have hm : nyquistMask N k' = true := by
        rw [nyquistMask_iff, h]
        intro i
        have h0 := hN 0
        have h1 := hN 1
        have h2 := hN 2
        fin_cases i <;> simp [e0, e1, e2] <;> omega
      rw [hm] at hk'
      exact absurd hk' (by decide)
    simp [this]
  · have : k' ≠ k := fun h => by
      have := hk' 0
      rw [h] at this
      simp [scaledWaves, e0, Real.pi_ne_zero] at this
    simp [this]
  · have := congrFun (congrFun h 2) k
    simp at this

end SpectralDNS.Periodic

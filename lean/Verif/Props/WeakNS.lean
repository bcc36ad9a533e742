import Verif.Props.Weak

/-!
# C83: the equations solved by NS, NS2D, MHD and Bq2D with the 3/2-rule
-/

namespace SpectralDNS.Periodic

open Complex Spec Dealias Torus MeasureTheory

section
variable {n : ℕ} (N : Fin (n + 1) → ℕ) (L : Fin (n + 1) → ℝ) (hN : ∀ i, 0 < N i) (hL : ∀ i, 0 < L i)
include hN hL

/-- A convective term that differs on the kept modes from minus `(u.grad)u` by a gradient. -/
theorem weak_gradient (nu : ℝ) (Source : SArr (n + 1) (RModes N)) (hsm : ∀ i, Unmasked N (Source i)) (conv) (rhs u : SArr (n + 1) (RModes N))
    (hm : ∀ i, Unmasked N (u i)) (phi : RModes N → ℂ) (hconv : ∀ i k, nyquistMask N k = true → conv rhs u i k =
      -advection (rspace N fun i => padded (N i)).forward (rspace N fun i => padded (N i)).backward (scaledWaves N L) u i k
        + I * scaledWaves N L i k * phi k) :
    ∃ p, Unmasked N p ∧ (∀ k, pressureHat (ComputeRHS (padCtx N L nu Source) conv rhs u).2 k =
        p k + if nyquistMask N k ∧ ∃ i, scaledWaves N L i k ≠ 0 then phi k else 0) ∧
      ∀ v : SArr (n + 1) (RModes N), (∀ i, Unmasked N (v i)) → (∀ i, IsReal N (v i)) →
        boxMean L (fun x => ∑ i, fn N L (rhsNS (padCtx N L nu Source) conv rhs u i) x * fn N L (v i) x) =
          momentumWork L nu (fun i => fn N L (u i)) (fun i => fn N L (Source i)) (fun i => fn N L (v i)) (fn N L p) := by
  let conv' : SArr (n + 1) (RModes N) → SArr (n + 1) (RModes N) → SArr (n + 1) (RModes N) := fun _ u i k =>
    -advection (rspace N fun i => padded (N i)).forward (rspace N fun i => padded (N i)).backward (scaledWaves N L) u i k
  have hg := rhsNS_gradient (padCtx N L nu Source) conv conv' rhs rhs u phi hconv
  refine ⟨pressureHat (ComputeRHS (padCtx N L nu Source) conv' rhs u).2, (rhsNS_unmasked N L nu Source hsm conv' rhs u hm).2, hg.2, fun v hv hr => ?_⟩
  rw [mean_power N L hN hL _ v (rhsNS_unmasked N L nu Source hsm conv rhs u hm).1 hv hr, hg.1,
    weak_of_conv N L hN hL nu Source hsm conv' rhs u hm (fun _ _ _ => rfl) v hv hr]

/-- Mean of `|u|^2/2` against a test function. -/
theorem mean_kinetic (u : SArr (n + 1) (RModes N)) (hm : ∀ i, Unmasked N (u i)) (e : RModes N → ℂ) (he : Unmasked N e) :
    boxMean L (fun x => (1 / 2 * ∑ j, fn N L (u j) x ^ 2) * fn N L e x) = Spec.inner (rweight N) e (fun k => 1 / 2 *
      (rspace N fun i => padded (N i)).forward (fun x => ∑ j, (rspace N fun i => padded (N i)).backward (u j) x *
        (rspace N fun i => padded (N i)).backward (u j) x) k) := by
  have hhalf : ∀ (b r : RModes N → ℂ), Spec.inner (rweight N) b (fun k => 1 / 2 * r k) = 1 / 2 * Spec.inner (rweight N) b r := fun b r => by
    simp only [Spec.inner, Finset.mul_sum]
    refine Finset.sum_congr rfl fun k _ => ?_
    rw [mul_left_comm ((starRingEnd ℂ) (b k)), show (1 / 2 : ℂ) = ((1 / 2 : ℝ) : ℂ) by push_cast; ring, re_ofReal_mul]
    ring
  have e1 : (fun x => (1 / 2 * ∑ j, fn N L (u j) x ^ 2) * fn N L e x) = fun x => 1 / 2 * ∑ j, fn N L e x * fn N L (u j) x * fn N L (u j) x := by
    funext x
    rw [mul_assoc, Finset.sum_mul]
    congr 1
    exact Finset.sum_congr rfl fun j _ => by ring
  have hc : ∀ a, Continuous (fn N L a) := fun a => trigField_continuous _ _ _
  rw [e1, boxMean_const_mul, boxMean_sum, hhalf, inner_forward (T := rspace N fun i => padded (N i)) (padCtx_adjoint N L 0 0)]
  · rw [Finset.sum_congr rfl fun j _ => mean_three N hN L hL e (u j) (u j) he (hm j) (hm j), ← Finset.mul_sum, Finset.sum_comm]
    congr 2
    refine Finset.sum_congr rfl fun x _ => ?_
    rw [Finset.mul_sum]
    exact Finset.sum_congr rfl fun j _ => by ring
  · exact fun j => ((hc _).mul (hc _)).mul (hc _)

/-- The total pressure `p + |u|^2/2` up to a constant. -/
theorem bernoulli (u : SArr (n + 1) (RModes N)) (hm : ∀ i, Unmasked N (u i)) (p q : RModes N → ℂ) (hp : Unmasked N p)
    (h : ∀ k, q k = p k + if nyquistMask N k ∧ ∃ i, scaledWaves N L i k ≠ 0 then 1 / 2 * (rspace N fun i => padded (N i)).forward
      (fun x => ∑ j, (rspace N fun i => padded (N i)).backward (u j) x * (rspace N fun i => padded (N i)).backward (u j) x) k else 0)
    (e : RModes N → ℂ) (he : Unmasked N e) (hr : IsReal N e) (h0 : ∀ k, (∀ i, waves N i k = 0) → e k = 0) :
    boxMean L (fun x => fn N L q x * fn N L e x) = boxMean L (fun x => (fn N L p x + 1 / 2 * ∑ j, fn N L (u j) x ^ 2) * fn N L e x) := by
  have hq : Unmasked N q := fun k hk => by rw [h k, hp k hk, hk]; simp
  have hc : ∀ a, Continuous (fn N L a) := fun a => trigField_continuous _ _ _
  simp only [add_mul]
  rw [boxMean_add]
  rotate_left
  · exact (hc _).mul (hc _)
  · exact (continuous_const.mul (continuous_finsetSum _ fun j _ => (hc _).pow 2)).mul (hc _)
  rw [mean_kinetic N L hN hL u hm e he, mean_inner N hN L hL q e hq he hr, mean_inner N hN L hL p e hp he hr, inner_symm, inner_symm _ p,
    ← inner_add_right]
  refine Finset.sum_congr rfl fun k _ => ?_
  by_cases hk : nyquistMask N k = true ∧ ∃ i, waves N i k ≠ 0
  · have hk' : nyquistMask N k = true ∧ ∃ i, scaledWaves N L i k ≠ 0 := ⟨hk.1, hk.2.imp fun i hi => by
      have := Real.pi_pos
      have := (hL i).ne'
      have hw : (waves N i k : ℝ) ≠ 0 := by exact_mod_cast hi
      exact mul_ne_zero (by positivity) hw⟩
    rw [h k, if_pos hk']
  · have : e k = 0 := by
      by_cases h1 : nyquistMask N k = true
      · refine h0 k fun i => ?_
        by_contra h2
        exact hk ⟨h1, i, h2⟩
      · exact he k (by simpa using h1)
    rw [this]
    simp

end

section
variable (N : Fin 3 → ℕ) (L : Fin 3 → ℝ) (hN : ∀ i, 0 < N i) (hL : ∀ i, 0 < L i)
include hN hL

/-- C83, NS.  Every form of the convection: the right-hand side is the Galerkin projection of `-(u.grad)u - grad p + nu Lap u + f`, with
functions on the box and integrals over it: tested with any real trigonometric polynomial of the kept modes both sides agree.  `p` is the stored
pressure, for the Vortex form the stored pressure is `p + |u|^2/2` up to a constant. -/
theorem C83_momentum (nu : ℝ) (Source : SArr 3 (RModes N)) (hsm : ∀ i, Unmasked N (Source i)) (name : String) (conv)
    (hname : getConvection name = some conv) (s : Scratch 3 (RModes N) (Grid fun i => padded (N i))) (rhs u : SArr 3 (RModes N))
    (hu : Solenoidal (scaledWaves N L) u) (hm : ∀ i, Unmasked N (u i)) :
    let c := padCtx N L nu Source
    let C : SArr 3 (RModes N) → SArr 3 (RModes N) → SArr 3 (RModes N) := fun r u => conv s r u c.Tp c.K
    ∃ p, (name ≠ "Vortex" → p = pressureHat (ComputeRHS c C rhs u).2) ∧
      (name = "Vortex" → ∀ e, Unmasked N e → IsReal N e → (∀ k, (∀ i, waves N i k = 0) → e k = 0) →
        boxMean L (fun x => fn N L (pressureHat (ComputeRHS c C rhs u).2) x * fn N L e x) =
          boxMean L (fun x => (fn N L p x + 1 / 2 * ∑ j, fn N L (u j) x ^ 2) * fn N L e x)) ∧
      ∀ v : SArr 3 (RModes N), (∀ i, Unmasked N (v i)) → (∀ i, IsReal N (v i)) →
        boxMean L (fun x => ∑ i, fn N L (rhsNS c C rhs u i) x * fn N L (v i) x) =
          momentumWork L nu (fun i => fn N L (u i)) (fun i => fn N L (Source i)) (fun i => fn N L (v i)) (fn N L p) := by
  intro c C
  have hf := C06_convection_forms (ι := RModes N) (X := Grid fun i => padded (N i)) name
  rw [hname] at hf
  have hw : ∀ k, rweight N k ≠ 0 := fun k => by unfold rweight; split <;> norm_num
  have hA := padCtx_additive N L nu Source
  have hadj := padCtx_adjoint N L nu Source
  have hLb := padCtx_leibniz N hN L nu Source
  by_cases hv : name = "Vortex"
  · have h1 : ∀ i k, nyquistMask N k = true → C rhs u i k = -advection c.Tp.forward c.Tp.backward c.K u i k +
        I * c.K i k * (1 / 2 * c.Tp.forward (fun x => ∑ j, c.Tp.backward (u j) x * c.Tp.backward (u j) x) k) := fun i k hk => by
      rw [← lamb_eq_advection hA hw hadj hLb hm i k hk]
      rcases hf s rhs u c.Tp c.K i k with ⟨e, _⟩ | ⟨e, _⟩ | ⟨e, _⟩ | ⟨_, e⟩
      · exact absurd (hv.symm.trans e) (by decide)
      · exact absurd (hv.symm.trans e) (by decide)
      · exact absurd (hv.symm.trans e) (by decide)
      · exact e
    obtain ⟨p, hp, h2, h3⟩ := weak_gradient N L hN hL nu Source hsm C rhs u hm _ h1
    exact ⟨p, fun h => absurd hv h, fun _ e he hr h0 => bernoulli N L hN hL u hm p _ hp h2 e he hr h0, h3⟩
  · have h1 : ∀ i k, nyquistMask N k = true → C rhs u i k = -advection c.Tp.forward c.Tp.backward c.K u i k + I * c.K i k * (0 : RModes N → ℂ) k :=
      fun i k hk => by
        have hd := divergence_eq_advection hA hw hadj hLb hm hu i k hk
        rw [Pi.zero_apply, mul_zero, add_zero]
        rcases hf s rhs u c.Tp c.K i k with ⟨_, e⟩ | ⟨_, e⟩ | ⟨_, e⟩ | ⟨e, _⟩
        · exact e
        · exact e.trans (by rw [hd])
        · exact e.trans (by rw [hd]; ring)
        · exact absurd e hv
    obtain ⟨p, hp, h2, h3⟩ := weak_gradient N L hN hL nu Source hsm C rhs u hm _ h1
    exact ⟨p, fun _ => funext fun k => ((h2 k).trans (by simp)).symm, fun h => absurd h hv, h3⟩

/-- C83, NS.  Solutions of the semi-discrete equations satisfy the weak Navier-Stokes equations in the box, at all times. -/
theorem C83_solution (nu : ℝ) (Source : SArr 3 (RModes N)) (hs : Solenoidal (scaledWaves N L) Source) (hsm : ∀ i, Unmasked N (Source i))
    (name : String) (conv) (hname : getConvection name = some conv) (s : Scratch 3 (RModes N) (Grid fun i => padded (N i)))
    (rhs : SArr 3 (RModes N)) (U : ℝ → SArr 3 (RModes N)) (hU : ∀ t i k, HasDerivAt (fun s => U s i k)
      (rhsNS (padCtx N L nu Source) (fun r u => conv s r u (padCtx N L nu Source).Tp (padCtx N L nu Source).K) rhs (U t) i k) t)
    (h0 : Solenoidal (scaledWaves N L) (U 0)) (hm : ∀ i, Unmasked N (U 0 i)) (t : ℝ) :
    (∀ x, ∑ i, pderiv i (fn N L (U t i)) x = 0) ∧
    ∃ p : RModes N → ℂ, ∀ v : SArr 3 (RModes N), (∀ i, Unmasked N (v i)) → (∀ i, IsReal N (v i)) →
      HasDerivAt (fun s => boxMean L fun x => ∑ i, fn N L (U s i) x * fn N L (v i) x)
        (momentumWork L nu (fun i => fn N L (U t i)) (fun i => fn N L (Source i)) (fun i => fn N L (v i)) (fn N L p)) t := by
  have hA := C81_solutions_admissible (padCtx N L nu Source) _ rhs hs hsm U hU h0 hm
  refine ⟨C83_divergence N L (U t) (hA t).1, ?_⟩
  obtain ⟨p, _, _, h3⟩ := C83_momentum N L hN hL nu Source hsm name conv hname s rhs (U t) (hA t).1 (hA t).2
  refine ⟨p, fun v hv hr => ?_⟩
  rw [← h3 v hv hr, mean_power N L hN hL _ v (rhsNS_unmasked N L nu Source hsm _ rhs (U t) (hA t).2).1 hv hr]
  simp only [mean_power N L hN hL _ v (hA _).2 hv hr]
  have := power_deriv_sum (rweight N) (fun _ => v) U (fun _ _ => 0) _ t (fun i k => hasDerivAt_const _ _) (hU t)
  refine this.congr_deriv ?_
  simp [power]

end

/-- Velocity and test field `(0, 0, 2 cos x_0)` on a grid with eight points per axis satisfy the hypotheses. -/
example : let N : Fin 3 → ℕ := fun _ => 8
    let u : SArr 3 (RModes N) := fun i k => if i = 2 ∧ waves N 2 k = 0 ∧ waves N 1 k = 0 ∧ (waves N 0 k = 1 ∨ waves N 0 k = -1) then 1 else 0
    Solenoidal (scaledWaves N 1) u ∧ (∀ i, Unmasked N (u i)) ∧ (∀ i, IsReal N (u i)) ∧ ∃ k, u 2 k ≠ 0 := by
  intro N u
  refine ⟨fun k => ?_, fun i k hk => ?_, fun i k k' hk => ?_, ⟨fun i => ⟨if i = 0 then 1 else 0, by fin_cases i <;> decide⟩, ?_⟩⟩
  · by_cases hk : waves N 2 k = 0
    · simp [dot, at', Fin.sum_univ_three, u, scaledWaves, hk]
    · simp [dot, at', u, hk]
  · refine if_neg fun h => ?_
    rw [nyquistMask, decide_eq_false_iff_not] at hk
    refine hk fun j => ?_
    fin_cases j
    · rcases h.2.2.2 with h | h <;> simp [h, N]
    · simp [h.2.2.1, N]
    · simp [h.2.1, N]
  · simp only [u, hk]
    have e : (i = 2 ∧ -waves N 2 k = 0 ∧ -waves N 1 k = 0 ∧ (-waves N 0 k = 1 ∨ -waves N 0 k = -1)) ↔
        (i = 2 ∧ waves N 2 k = 0 ∧ waves N 1 k = 0 ∧ (waves N 0 k = 1 ∨ waves N 0 k = -1)) := by omega
    rw [if_congr e rfl rfl]
    split_ifs <;> simp
  · have h : ∀ i, waves N i (fun i => ⟨if i = 0 then 1 else 0, by fin_cases i <;> decide⟩) = if i = 0 then 1 else 0 := fun i => by fin_cases i <;> decide
    simp [u, h]

end SpectralDNS.Periodic

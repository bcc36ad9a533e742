import Verif.Lemmas.GalerkinTime

/-!
# Error terms of transported and diffused fields

The pieces of the energy estimates of systems of equations: a smooth field `w` and Galerkin coefficients `W` that approximate it.
-/

namespace SpectralDNS.Torus

open Complex Spec Periodic Dealias MeasureTheory
open scoped ContDiff

variable {n : ℕ} {N : Fin (n + 1) → ℕ} {L : Fin (n + 1) → ℝ}

/-- The difference of the truncated series of `w` and the Galerkin function. -/
noncomputable def err (N : Fin (n + 1) → ℕ) (L : Fin (n + 1) → ℝ) (w : (Fin (n + 1) → ℝ) → ℝ) (W : RModes N → ℂ) : RModes N → ℂ :=
  fun k => proj N L w k - W k

theorem err_unmasked (w : (Fin (n + 1) → ℝ) → ℝ) {W : RModes N → ℂ} (hW : Unmasked N W) : Unmasked N (err N L w W) := fun k hk => by
  simp only [err, proj_unmasked N L w k hk, hW k hk, sub_zero]

theorem err_real (w : (Fin (n + 1) → ℝ) → ℝ) {W : RModes N → ℂ} (hW : IsReal N W) : IsReal N (err N L w W) := fun k k' h => by
  simp only [err, proj_real N L w k k' h, hW k k' h, map_sub]

theorem err_solenoidal (hL : ∀ i, 0 < L i) {u : Fin (n + 1) → (Fin (n + 1) → ℝ) → ℝ} (hu : ∀ i, ContDiff ℝ ∞ (u i)) (hp : ∀ i, BoxPeriodic L (u i))
    (hdiv : ∀ x, ∑ i, pderiv i (u i) x = 0) {U : SArr (n + 1) (RModes N)} (hU : Solenoidal (scaledWaves N L) U) :
    Solenoidal (scaledWaves N L) fun i => err N L (u i) (U i) := fun k => by
  have h1 := proj_solenoidal N L hL (fun i => (hu i).of_le (by exact_mod_cast le_top)) hp hdiv k
  have h2 := hU k
  simp only [dot, at', err, mul_sub, Finset.sum_sub_distrib] at h1 h2 ⊢
  rw [h1, h2, sub_zero]

theorem smooth_one {g : (Fin (n + 1) → ℝ) → ℝ} (h : ContDiff ℝ ∞ g) : ContDiff ℝ 1 g := h.of_le (by exact_mod_cast le_top)

theorem smooth_pderiv {g : (Fin (n + 1) → ℝ) → ℝ} (h : ContDiff ℝ ∞ g) (j : Fin (n + 1)) : ContDiff ℝ ∞ (pderiv j g) :=
  contDiff_pderiv (m := ⊤) (h.of_le (by simp)) j

theorem fn_cont (a : RModes N → ℂ) : Continuous (fn N L a) := (fn_contDiff N L a).continuous

theorem dfn_cont (a : RModes N → ℂ) (j : Fin (n + 1)) : Continuous (pderiv j (fn N L a)) := (smooth_pderiv (fn_contDiff N L a) j).continuous

theorem pderiv_err (hL : ∀ i, 0 < L i) {w : (Fin (n + 1) → ℝ) → ℝ} (hw : ContDiff ℝ ∞ w) (pw : BoxPeriodic L w) (W : RModes N → ℂ) (j : Fin (n + 1))
    (x : Fin (n + 1) → ℝ) : pderiv j (fn N L (err N L w W)) x = fn N L (proj N L (pderiv j w)) x - pderiv j (fn N L W) x := by
  change pderiv j (fn N L fun k => proj N L w k - W k) x = _
  rw [pderiv_fn_sub, pderiv_proj N L hL (smooth_one hw) pw]

theorem fn_err (w : (Fin (n + 1) → ℝ) → ℝ) (W : RModes N → ℂ) (x : Fin (n + 1) → ℝ) :
    fn N L (err N L w W) x = fn N L (proj N L w) x - fn N L W x := by
  change fn N L (fun k => proj N L w k - W k) x = _
  rw [fn_sub]

/-- Diffusion dampens the error. -/
theorem diffusion_error (hN : ∀ i, 0 < N i) (hL : ∀ i, 0 < L i) {w : (Fin (n + 1) → ℝ) → ℝ} (hw : ContDiff ℝ ∞ w) (pw : BoxPeriodic L w)
    {W : RModes N → ℂ} (hW : Unmasked N W) :
    boxMean L (fun x => (∑ j, pderiv j (pderiv j w) x) * fn N L (err N L w W) x) +
      boxMean L (fun x => ∑ j, pderiv j (fn N L W) x * pderiv j (fn N L (err N L w W)) x) ≤ 0 := by
  have hu := err_unmasked (L := L) w hW
  have hpe := pderiv_err hL hw pw W
  generalize err N L w W = E at hu hpe ⊢
  have hg : ∀ j, ContDiff ℝ ∞ (pderiv j w) := smooth_pderiv hw
  have cg : ∀ j, Continuous (pderiv j w) := fun j => (hg j).continuous
  have cl : ∀ j, Continuous (pderiv j (pderiv j w)) := fun j => (smooth_pderiv (hg j) j).continuous
  have cE : Continuous (fn N L E) := fn_cont E
  have cdE : ∀ j, Continuous (pderiv j (fn N L E)) := dfn_cont E
  have cdW : ∀ j, Continuous (pderiv j (fn N L W)) := dfn_cont W
  have cgw : ∀ j, Continuous (fn N L (proj N L (pderiv j w))) := fun j => fn_cont _
  have z2 : boxMean L (fun x => ∑ j, (pderiv j (pderiv j w) x * fn N L E x + pderiv j w x * pderiv j (fn N L E) x)) = 0 := by
    refine boxMean_sum_zero L (fun j => ?_) fun j => ?_
    · exact ((cl j).mul cE).add ((cg j).mul (cdE j))
    · exact parts_zero L hL (smooth_one (hg j)) (smooth_one (fn_contDiff N L E)) (pw.pderiv j) (fn_periodic N L hL E) j
  have z3 : boxMean L (fun x => ∑ j, (pderiv j w x - fn N L (proj N L (pderiv j w)) x) * pderiv j (fn N L E) x) = 0 := by
    refine boxMean_sum_zero L (fun j => ?_) fun j => ?_
    · exact ((cg j).sub (cgw j)).mul (cdE j)
    · rw [show pderiv j (fn N L E) = fn N L (Spec.deriv (scaledWaves N L) j E) from pderiv_trigField _ _ _ _]
      exact proj_orth N L hN hL (cg j) (unmasked_deriv hu j)
  have e : ∀ x, (∑ j, pderiv j (pderiv j w) x) * fn N L E x + ∑ j, pderiv j (fn N L W) x * pderiv j (fn N L E) x =
      ((∑ j, (pderiv j (pderiv j w) x * fn N L E x + pderiv j w x * pderiv j (fn N L E) x)) -
        ∑ j, (pderiv j w x - fn N L (proj N L (pderiv j w)) x) * pderiv j (fn N L E) x) - ∑ j, pderiv j (fn N L E) x ^ 2 := fun x => by
    rw [Finset.sum_mul, ← Finset.sum_add_distrib, ← Finset.sum_sub_distrib, ← Finset.sum_sub_distrib]
    refine Finset.sum_congr rfl fun j _ => ?_
    have h := hpe j x
    linear_combination pderiv j (fn N L E) x * h
  have c1 : Continuous fun x => (∑ j, pderiv j (pderiv j w) x) * fn N L E x := (continuous_finsetSum _ fun j _ => cl j).mul cE
  have c2 : Continuous fun x => ∑ j, pderiv j (fn N L W) x * pderiv j (fn N L E) x := continuous_finsetSum _ fun j _ => (cdW j).mul (cdE j)
  have c3 : Continuous fun x => ∑ j, (pderiv j (pderiv j w) x * fn N L E x + pderiv j w x * pderiv j (fn N L E) x) :=
    continuous_finsetSum _ fun j _ => ((cl j).mul cE).add ((cg j).mul (cdE j))
  have c4 : Continuous fun x => ∑ j, (pderiv j w x - fn N L (proj N L (pderiv j w)) x) * pderiv j (fn N L E) x :=
    continuous_finsetSum _ fun j _ => ((cg j).sub (cgw j)).mul (cdE j)
  have c5 : Continuous fun x => ∑ j, pderiv j (fn N L E) x ^ 2 := continuous_finsetSum _ fun j _ => (cdE j).pow 2
  rw [← boxMean_add L c1 c2]
  simp only [e]
  rw [boxMean_sub L (c3.fun_sub c4) c5, boxMean_sub L c3 c4, z2, z3]
  have := boxMean_nonneg hL (f := fun x => ∑ j, pderiv j (fn N L E) x ^ 2) fun x _ => Finset.sum_nonneg fun j _ => sq_nonneg _
  linarith

/-- Pressure gradients do no work on solenoidal fields. -/
theorem pressure_error (hL : ∀ i, 0 < L i) {p : (Fin (n + 1) → ℝ) → ℝ} (hp : ContDiff ℝ 1 p) (pp : BoxPeriodic L p) {E : SArr (n + 1) (RModes N)}
    (hE : Solenoidal (scaledWaves N L) E) : boxMean L (fun x => ∑ i, pderiv i p x * fn N L (E i) x) = 0 := by
  have cdp : ∀ i, Continuous (pderiv i p) := continuous_pderiv hp
  have cE : ∀ i, Continuous (fn N L (E i)) := fun i => fn_cont _
  have cdE : ∀ i j, Continuous (pderiv j (fn N L (E i))) := fun i j => dfn_cont _ j
  have cp := hp.continuous
  have z1 : boxMean L (fun x => ∑ i, (pderiv i p x * fn N L (E i) x + p x * pderiv i (fn N L (E i)) x)) = 0 :=
    boxMean_sum_zero L (fun i => by fun_prop) fun i => parts_zero L hL hp (smooth_one (fn_contDiff N L _)) pp (fn_periodic N L hL _) i
  rw [← z1]
  congr 1
  funext x
  rw [Finset.sum_add_distrib, ← Finset.mul_sum, C83_divergence N L E hE, mul_zero, add_zero]

/-- Transport by a solenoidal Galerkin field is skew. -/
theorem transport_skew (hL : ∀ i, 0 < L i) {U : SArr (n + 1) (RModes N)} (hU : Solenoidal (scaledWaves N L) U) (a b : RModes N → ℂ) :
    boxMean L (fun x => ∑ j, fn N L (U j) x * pderiv j (fn N L a) x * fn N L b x) +
      boxMean L (fun x => ∑ j, fn N L (U j) x * pderiv j (fn N L b) x * fn N L a x) = 0 := by
  have c1 : ∀ j, Continuous (fn N L (U j)) := fun j => fn_cont _
  have c2 : Continuous (fn N L a) := fn_cont a
  have c3 : Continuous (fn N L b) := fn_cont b
  have c4 : ∀ j, Continuous (pderiv j (fn N L a)) := dfn_cont a
  have c5 : ∀ j, Continuous (pderiv j (fn N L b)) := dfn_cont b
  have c6 : ∀ i j, Continuous (pderiv j (fn N L (U i))) := fun i j => dfn_cont _ j
  have hab : ContDiff ℝ ∞ fun x => fn N L a x * fn N L b x := (fn_contDiff N L a).mul (fn_contDiff N L b)
  have c7 : ∀ j, Continuous (pderiv j fun x => fn N L a x * fn N L b x) := fun j => (smooth_pderiv hab j).continuous
  have z : boxMean L (fun x => ∑ j, (pderiv j (fun x => fn N L a x * fn N L b x) x * fn N L (U j) x +
      fn N L a x * fn N L b x * pderiv j (fn N L (U j)) x)) = 0 :=
    boxMean_sum_zero L (fun j => by fun_prop) fun j => parts_zero L hL (smooth_one hab) (smooth_one (fn_contDiff N L _))
      ((fn_periodic N L hL a).mul (fn_periodic N L hL b)) (fn_periodic N L hL _) j
  rw [← boxMean_add L (by fun_prop) (by fun_prop), ← z]
  congr 1
  funext x
  rw [Finset.sum_add_distrib (f := fun j => pderiv j (fun x => fn N L a x * fn N L b x) x * fn N L (U j) x), ← Finset.mul_sum,
    C83_divergence N L U hU, mul_zero, add_zero, ← Finset.sum_add_distrib]
  refine Finset.sum_congr rfl fun j _ => ?_
  rw [pderiv_mul ((fn_contDiff N L a).differentiable (by simp)) ((fn_contDiff N L b).differentiable (by simp))]
  ring

theorem transport_skew_self (hL : ∀ i, 0 < L i) {U : SArr (n + 1) (RModes N)} (hU : Solenoidal (scaledWaves N L) U) (a : RModes N → ℂ) :
    boxMean L (fun x => ∑ j, fn N L (U j) x * pderiv j (fn N L a) x * fn N L a x) = 0 := by
  have := transport_skew hL hU a a
  linarith

theorem abs_boxMean_le (hL : ∀ i, 0 < L i) {f g : (Fin (n + 1) → ℝ) → ℝ} (hf : Continuous f) (hg : Continuous g)
    (h : ∀ x ∈ Set.Icc 0 L, |f x| ≤ g x) : |boxMean L f| ≤ boxMean L g := by
  rw [abs_le]
  have h2 := boxMean_mono hL hf hg fun x hx => (le_abs_self _).trans (h x hx)
  have h1 := boxMean_mono hL hf.neg hg fun x hx => (neg_le_abs _).trans (h x hx)
  have h3 : boxMean L (-f) = -boxMean L f := boxMean_neg L f
  rw [h3] at h1
  exact ⟨by linarith, h2⟩

/-- One term of the transport error. -/
theorem transport_term {A u r e g h z : ℝ} (hA : 0 ≤ A) (hu : |u| ≤ A) (hg : |g| ≤ A) (hh : |h| ≤ A) :
    |((r + e) * g + (u - r - e) * h) * z| ≤ A * (r ^ 2 + e ^ 2 + h ^ 2 + 3 * z ^ 2) := by
  have q : ∀ a b : ℝ, |a * b| ≤ (a ^ 2 + b ^ 2) / 2 := fun a b => by
    rw [abs_le]; constructor <;> nlinarith [sq_nonneg (a + b), sq_nonneg (a - b)]
  have m : ∀ {a : ℝ} (b : ℝ), |a| ≤ A → |a * b| ≤ A * |b| := fun b ha => by
    rw [abs_mul]; exact mul_le_mul_of_nonneg_right ha (abs_nonneg _)
  have e1 : ((r + e) * g + (u - r - e) * h) * z = g * (r * z) + g * (e * z) + u * (h * z) - h * (r * z) - h * (e * z) := by ring
  rw [e1]
  have t1 := m (r * z) hg
  have t2 := m (e * z) hg
  have t3 := m (h * z) hu
  have t4 := m (r * z) hh
  have t5 := m (e * z) hh
  have a1 := abs_sub (g * (r * z) + g * (e * z) + u * (h * z) - h * (r * z)) (h * (e * z))
  have a2 := abs_sub (g * (r * z) + g * (e * z) + u * (h * z)) (h * (r * z))
  have a3 := abs_add_le (g * (r * z) + g * (e * z)) (u * (h * z))
  have a4 := abs_add_le (g * (r * z)) (g * (e * z))
  have q1 := mul_le_mul_of_nonneg_left (q r z) hA
  have q2 := mul_le_mul_of_nonneg_left (q e z) hA
  have q3 := mul_le_mul_of_nonneg_left (q h z) hA
  nlinarith [mul_nonneg hA (sq_nonneg z), mul_nonneg hA (sq_nonneg h)]

/-- The transport error is transport of the error by the Galerkin field up to terms bounded by squares. -/
theorem transport_error (hL : ∀ i, 0 < L i) {A : ℝ} (hA : 0 ≤ A) {u : Fin (n + 1) → (Fin (n + 1) → ℝ) → ℝ} (hu : ∀ i, ContDiff ℝ ∞ (u i))
    {w : (Fin (n + 1) → ℝ) → ℝ} (hw : ContDiff ℝ ∞ w) (pw : BoxPeriodic L w) (U : SArr (n + 1) (RModes N)) (W Z : RModes N → ℂ)
    (bu : ∀ i, ∀ x ∈ Set.Icc 0 L, |u i x| ≤ A) (bg : ∀ j, ∀ x ∈ Set.Icc 0 L, |pderiv j w x| ≤ A)
    (bh : ∀ j, ∀ x ∈ Set.Icc 0 L, |pderiv j w x - fn N L (proj N L (pderiv j w)) x| ≤ A) :
    |boxMean L (fun x => (∑ j, u j x * pderiv j w x) * fn N L Z x) - boxMean L (fun x => (∑ j, fn N L (U j) x * pderiv j (fn N L W) x) * fn N L Z x) -
      boxMean L (fun x => ∑ j, fn N L (U j) x * pderiv j (fn N L (err N L w W)) x * fn N L Z x)| ≤
    A * (boxMean L (fun x => ∑ j, (u j x - fn N L (proj N L (u j)) x) ^ 2) + boxMean L (fun x => ∑ j, fn N L (err N L (u j) (U j)) x ^ 2) +
      boxMean L (fun x => ∑ j, (pderiv j w x - fn N L (proj N L (pderiv j w)) x) ^ 2) +
      3 * ((n + 1 : ℕ) : ℝ) * boxMean L (fun x => fn N L Z x ^ 2)) := by
  have cu : ∀ j, Continuous (u j) := fun j => (hu j).continuous
  have cg : ∀ j, Continuous (pderiv j w) := fun j => (smooth_pderiv hw j).continuous
  have c1 : ∀ a, Continuous (fn N L a) := fun a => fn_cont a
  have c2 : ∀ a j, Continuous (pderiv j (fn N L a)) := fun a j => dfn_cont a j
  rw [← boxMean_sub L (by fun_prop) (by fun_prop), ← boxMean_sub L (by fun_prop) (by fun_prop)]
  have e : ∀ x, (∑ j, u j x * pderiv j w x) * fn N L Z x - (∑ j, fn N L (U j) x * pderiv j (fn N L W) x) * fn N L Z x -
      ∑ j, fn N L (U j) x * pderiv j (fn N L (err N L w W)) x * fn N L Z x =
      ∑ j, ((u j x - fn N L (proj N L (u j)) x + fn N L (err N L (u j) (U j)) x) * pderiv j w x +
        (u j x - (u j x - fn N L (proj N L (u j)) x) - fn N L (err N L (u j) (U j)) x) *
          (pderiv j w x - fn N L (proj N L (pderiv j w)) x)) * fn N L Z x := fun x => by
    rw [Finset.sum_mul, Finset.sum_mul, ← Finset.sum_sub_distrib, ← Finset.sum_sub_distrib]
    refine Finset.sum_congr rfl fun j _ => ?_
    rw [pderiv_err hL hw pw W j x]
    simp only [fn_err]
    ring
  simp only [e]
  refine (abs_boxMean_le hL (g := fun x => A * (((∑ j, (u j x - fn N L (proj N L (u j)) x) ^ 2) + ∑ j, fn N L (err N L (u j) (U j)) x ^ 2) +
      (∑ j, (pderiv j w x - fn N L (proj N L (pderiv j w)) x) ^ 2) + 3 * ((n + 1 : ℕ) : ℝ) * fn N L Z x ^ 2)) (by fun_prop) (by fun_prop) fun x hx => ?_).trans_eq ?_
  · refine (Finset.abs_sum_le_sum_abs _ _).trans ((Finset.sum_le_sum fun j _ => transport_term hA (bu j x hx) (bg j x hx) (bh j x hx)).trans_eq ?_)
    rw [← Finset.mul_sum, Finset.sum_add_distrib, Finset.sum_add_distrib, Finset.sum_add_distrib]
    simp
    left
    ring
  · rw [boxMean_const_mul, boxMean_add L (by fun_prop) (by fun_prop), boxMean_add L (by fun_prop) (by fun_prop), boxMean_add L (by fun_prop) (by fun_prop),
      boxMean_const_mul]

end SpectralDNS.Torus

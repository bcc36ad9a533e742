import Verif.Lemmas.ChebStable
import Verif.Props.ChebPoisson
import Mathlib.Topology.ContinuousMap.Weierstrass

/-!
# C117: the error of sandbox/cheb_poisson.py

Stability, an error bound and convergence in the maximum norm, for every right-hand side.
-/

namespace SpectralDNS.Sandbox

open Polynomial Real Finset

/-- What orthogonality gives when the approximation itself is the test function. -/
theorem self_test {n : ℕ} {u : ℝ[X]} {g : ℕ → ℝ} (hu : Dirichlet (n + 4) u) (ho : Orthogonal (n + 4) fun j => sample (n + 4) (derivative^[2] u) j - g j)
    {B : ℝ} (hB : 0 < B) (hg : ∀ j < n + 4, |g j| ≤ B) {x : ℝ} (hx : x ∈ Set.Icc (-1 : ℝ) 1) : |u.eval x| ≤ 4 * π ^ 2 * B := by
  refine Channel.helmholtz_bound .GC (n + 4) (by omega) (alfa := 0) le_rfl hB (fun j => -g j) (fun j hj => by rw [abs_neg]; exact hg j hj) u hu.1 hu.2.1 hu.2.2 ?_ hx
  have h := ho u hu
  simp only [Channel.quadWeight, ← mul_sum]
  congr 1
  refine eq_of_sub_eq_zero ?_
  rw [← sum_sub_distrib]
  refine neg_eq_zero.1 ((sum_neg_distrib _).symm.trans (Eq.trans ?_ h))
  refine sum_congr rfl fun j _ => ?_
  simp only [sample, node_eq, Function.iterate_succ, Function.iterate_zero, Function.comp_apply, id_eq]
  ring

/-- C117: the values returned by the script are at most `4 pi^2` times the largest of the values it is given, for any values and any number of points. -/
theorem C117_stable (banded fast : Bool) (n : ℕ) (f : ℕ → ℝ) {B : ℝ} (hf : ∀ j < n + 4, |f j| ≤ B) (j : ℕ) : |poisson banded fast (n + 4) f j| ≤ 4 * π ^ 2 * B := by
  obtain ⟨u, ⟨hu, ho⟩, -⟩ := (C107_galerkin banded fast n f).1
  rw [(C107_galerkin banded fast n f).2 u hu ho j]
  have hB : 0 ≤ B := (abs_nonneg _).trans (hf 0 (by omega))
  refine le_of_forall_pos_le_add fun d hd => ?_
  have h := self_test hu ho (B := B + d / (4 * π ^ 2)) (by positivity) (fun j hj => (hf j hj).trans (by linarith [show 0 < d / (4 * π ^ 2) by positivity]))
    (x := node (n + 4) j) ⟨neg_one_le_cos _, cos_le_one _⟩
  refine h.trans (le_of_eq ?_)
  field_simp

/-- C117: for every function that vanishes at both ends, the error at the points is at most `4 pi^2 + 1/2` times the largest distance of `u''` from any
polynomial of degree at most `N - 3`. -/
theorem C117_error (banded fast : Bool) (n : ℕ) {u u1 u2 : ℝ → ℝ} (h1 : ∀ x ∈ Set.Icc (-1 : ℝ) 1, HasDerivAt u (u1 x) x)
    (h2 : ∀ x ∈ Set.Icc (-1 : ℝ) 1, HasDerivAt u1 (u2 x) x) (hl : u (-1) = 0) (hr : u 1 = 0) (q : ℝ[X]) (hq : q.natDegree ≤ n + 1) {eps : ℝ}
    (hd : ∀ x ∈ Set.Icc (-1 : ℝ) 1, |u2 x - q.eval x| ≤ eps) (j : ℕ) :
    |poisson banded fast (n + 4) (fun j => u2 (node (n + 4) j)) j - u (node (n + 4) j)| ≤ (4 * π ^ 2 + 1 / 2) * eps := by
  have hin : ∀ j, node (n + 4) j ∈ Set.Icc (-1 : ℝ) 1 := fun j => ⟨neg_one_le_cos _, cos_le_one _⟩
  obtain ⟨p, hp2, hpl, hpr, hpd⟩ := Leg.exists_second q 0 0
  have hp : Dirichlet (n + 4) p := ⟨lt_of_le_of_lt degree_le_natDegree (by exact_mod_cast (by omega : p.natDegree < n + 4)), hpr, hpl⟩
  have hdist : ∀ x ∈ Set.Icc (-1 : ℝ) 1, |u x - p.eval x| ≤ eps / 2 := by
    refine Leg.bound_second (d := fun x => u x - p.eval x) (d1 := fun x => u1 x - (derivative p).eval x) (d2 := fun x => u2 x - q.eval x)
      (fun x hx => (h1 x hx).sub (p.hasDerivAt x)) (fun x hx => ?_) hd (by rw [hpl, hl, sub_self]) (by rw [hpr, hr, sub_self])
    have := (derivative p).hasDerivAt x
    rw [hp2] at this
    exact (h2 x hx).sub this
  obtain ⟨v, ⟨hv, ho⟩, -⟩ := (C107_galerkin banded fast n fun j => u2 (node (n + 4) j)).1
  rw [(C107_galerkin banded fast n _).2 v hv ho j]
  have hs : Dirichlet (n + 4) (v - p) := ⟨lt_of_le_of_lt (degree_sub_le _ _) (max_lt hv.1 hp.1), by rw [eval_sub, hv.2.1, hp.2.1, sub_zero],
    by rw [eval_sub, hv.2.2, hp.2.2, sub_zero]⟩
  have hso : Orthogonal (n + 4) fun j => sample (n + 4) (derivative^[2] (v - p)) j - (u2 (node (n + 4) j) - q.eval (node (n + 4) j)) := fun t ht => by
    rw [← ho t ht]
    refine sum_congr rfl fun j _ => ?_
    simp only [sample, Function.iterate_succ, Function.iterate_zero, Function.comp_apply, id_eq, derivative_sub, eval_sub, hp2]
    ring
  have hb : |(v - p).eval (node (n + 4) j)| ≤ 4 * π ^ 2 * eps := by
    have he : 0 ≤ eps := (abs_nonneg _).trans (hd 0 (by simp))
    refine le_of_forall_pos_le_add fun d hd0 => ?_
    have h := self_test hs hso (B := eps + d / (4 * π ^ 2)) (by positivity)
      (fun j _ => (hd _ (hin j)).trans (by linarith [show 0 < d / (4 * π ^ 2) by positivity])) (hin j)
    refine h.trans (le_of_eq ?_)
    field_simp
  have a2 := hdist _ (hin j)
  rw [abs_sub_comm] at a2
  rw [eval_sub] at hb
  calc |sample (n + 4) v j - u (node (n + 4) j)| = |(v.eval (node (n + 4) j) - p.eval (node (n + 4) j)) + (p.eval (node (n + 4) j) - u (node (n + 4) j))| := by
        rw [sample]; congr 1; ring
    _ ≤ 4 * π ^ 2 * eps + eps / 2 := (abs_add_le _ _).trans (add_le_add hb a2)
    _ = _ := by ring

/-- C117: for every continuous right-hand side the errors at all points tend to zero, as the number of points grows. -/
theorem C117_converges {u u1 u2 : ℝ → ℝ} (h1 : ∀ x ∈ Set.Icc (-1 : ℝ) 1, HasDerivAt u (u1 x) x) (h2 : ∀ x ∈ Set.Icc (-1 : ℝ) 1, HasDerivAt u1 (u2 x) x)
    (hl : u (-1) = 0) (hr : u 1 = 0) (hc : ContinuousOn u2 (Set.Icc (-1) 1)) {delta : ℝ} (hdelta : 0 < delta) : ∃ N0, ∀ N ≥ N0, ∀ banded fast, ∀ j,
      |poisson banded fast N (fun j => u2 (node N j)) j - u (node N j)| < delta := by
  have hk : 0 < 4 * π ^ 2 + 1 / 2 := by positivity
  obtain ⟨q, hq⟩ := exists_polynomial_near_of_continuousOn (-1) 1 u2 hc (delta / (2 * (4 * π ^ 2 + 1 / 2))) (by positivity)
  refine ⟨q.natDegree + 4, fun N hN banded fast j => ?_⟩
  obtain ⟨n, rfl⟩ : ∃ n, N = n + 4 := ⟨N - 4, by omega⟩
  refine (C117_error banded fast n h1 h2 hl hr q (by omega) (fun x hx => by rw [abs_sub_comm]; exact (hq x hx).le) j).trans_lt ?_
  rw [show (4 * π ^ 2 + 1 / 2) * (delta / (2 * (4 * π ^ 2 + 1 / 2))) = delta / 2 by field_simp]
  linarith

/-- C117: for smooth functions the errors decrease like `2^N / (N - 3)!` times the derivative of order `N`. -/
theorem C117_smooth (banded fast : Bool) (n : ℕ) {u : ℝ → ℝ} (hu : ContDiff ℝ (n + 4 : ℕ) u) (hl : u (-1) = 0) (hr : u 1 = 0) {A : ℝ}
    (hd : ∀ x ∈ Set.Icc (-1 : ℝ) 1, |iteratedDeriv (n + 4) u x| ≤ A) (j : ℕ) :
    |poisson banded fast (n + 4) (fun j => iteratedDeriv 2 u (node (n + 4) j)) j - u (node (n + 4) j)| ≤
      (4 * π ^ 2 + 1 / 2) * (A * 2 ^ (n + 2) / (n + 1).factorial) := by
  obtain ⟨h1, h2, -, q, hqd, hb⟩ := Leg.taylor_second (k := n + 1) hu hd
  exact C117_error banded fast n (fun x _ => h1 x) (fun x _ => h2 x) hl hr q hqd hb j

/-- The function of the script (line 27): the printed kind of error tends to zero. -/
example {delta : ℝ} (hdelta : 0 < delta) : let u : ℝ → ℝ := fun x => (1 - x ^ 2) ^ 2 * cos (π * x) * (x - 1 / 4) ^ 2
    ∃ N0, ∀ N ≥ N0, ∀ banded fast, ∀ j, |poisson banded fast N (fun j => deriv (deriv u) (node N j)) j - u (node N j)| < delta := by
  intro u
  have hu : ContDiff ℝ 2 u := by
    have : ContDiff ℝ 2 fun x => cos (π * x) := contDiff_cos.comp (contDiff_const.mul contDiff_id)
    exact (((contDiff_const.sub (contDiff_id.pow 2)).pow 2).mul this).mul ((contDiff_id.sub contDiff_const).pow 2)
  have h1 : ContDiff ℝ 1 (deriv u) := (contDiff_succ_iff_deriv.1 (show ContDiff ℝ (1 + 1) u from by rwa [one_add_one_eq_two])).2.2
  have h2 : ContDiff ℝ 0 (deriv (deriv u)) := (contDiff_succ_iff_deriv.1 (show ContDiff ℝ (0 + 1) (deriv u) from by rwa [zero_add])).2.2
  exact C117_converges (fun x _ => ((hu.differentiable (by norm_num)) x).hasDerivAt) (fun x _ => ((h1.differentiable (by norm_num)) x).hasDerivAt)
    (by simp [u]) (by simp [u]) h2.continuous.continuousOn hdelta

/-- For `sin(pi x)`, at every `N = n + 4`, the error is at most `(4 pi^2 + 1/2) pi^(n+4) 2^(n+2) / (n+1)!`. -/
example (banded fast : Bool) (n j : ℕ) : |poisson banded fast (n + 4) (fun j => iteratedDeriv 2 (fun x => sin (π * x)) (node (n + 4) j)) j - sin (π * node (n + 4) j)| ≤
    (4 * π ^ 2 + 1 / 2) * (π ^ (n + 4) * 2 ^ (n + 2) / (n + 1).factorial) := by
  refine C117_smooth banded fast n (u := fun x => sin (π * x)) (contDiff_sin.comp (contDiff_const.mul contDiff_id)) (by simp) (by simp) (fun x _ => ?_) j
  rw [iteratedDeriv_comp_const_mul contDiff_sin, abs_mul, abs_of_pos (by positivity)]
  exact mul_le_of_le_one_right (by positivity) (abs_iteratedDeriv_sin_le_one _ _)

end SpectralDNS.Sandbox

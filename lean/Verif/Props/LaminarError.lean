import Mathlib.Analysis.Real.Pi.Bounds
import Verif.Lemmas.HeatError
import Verif.Lemmas.HeatSeries
import Verif.Lemmas.MKM

/-!
# C115: the error that demo/LaminarChannel.py prints tends to zero
-/

namespace SpectralDNS.Laminar

open Real Finset Filter Topology Channel Heat Spec.Channel

/-! ## The series -/

/-- What the series leaves out beyond `M` pairs of terms. -/
noncomputable def cutoff (nu Re : ℝ) (M : ℕ) : ℝ := 1 / (nu * Re) / (2 * π ^ 3 * M ^ 2)

theorem mode_abs {nu t : ℝ} (hnu : 0 ≤ nu) (ht : 0 ≤ t) (x : ℝ) (m : ℕ) : |mode nu t x m| ≤ 1 / lam m ^ 3 := by
  have hl := lam_pos m
  rw [mode, abs_div, abs_of_pos (pow_pos hl 3)]
  refine div_le_div_of_nonneg_right ?_ (pow_pos hl 3).le
  rw [abs_mul, abs_mul, abs_pow, abs_neg, abs_one, one_pow, one_mul, abs_of_pos (exp_pos _)]
  refine mul_le_one₀ (abs_cos_le_one _) (exp_pos _).le (exp_le_one_iff.2 ?_)
  have : 0 ≤ nu * lam m ^ 2 * t := by positivity
  linarith

theorem cubes (A n : ℕ) (hA : 0 < A) : ∑ m ∈ range n, 1 / lam (A + m) ^ 3 ≤ 8 / π ^ 3 * (1 / (16 * (A : ℝ) ^ 2) - 1 / (16 * ((A + n : ℕ) : ℝ) ^ 2)) := by
  induction n with
  | zero => simp
  | succ n ih =>
    rw [sum_range_succ]
    have hp := pi_pos
    have hm : 0 < ((A + n : ℕ) : ℝ) := by exact_mod_cast (by omega : 0 < A + n)
    have e : 1 / lam (A + n) ^ 3 = 8 / π ^ 3 * (1 / (2 * ((A + n : ℕ) : ℝ) + 1) ^ 3) := by
      unfold lam; field_simp; norm_num
    have e2 : ((A + (n + 1) : ℕ) : ℝ) = ((A + n : ℕ) : ℝ) + 1 := by push_cast; ring
    rw [e2]
    set m := ((A + n : ℕ) : ℝ)
    have key : 1 / (2 * m + 1) ^ 3 ≤ 1 / (16 * m ^ 2) - 1 / (16 * (m + 1) ^ 2) := by
      have e3 : 1 / (16 * m ^ 2) - 1 / (16 * (m + 1) ^ 2) = (2 * m + 1) / (16 * m ^ 2 * (m + 1) ^ 2) := by field_simp; ring
      rw [e3, div_le_div_iff₀ (by positivity) (by positivity)]
      nlinarith [mul_pos hm hm, mul_pos (mul_pos hm hm) hm, mul_pos (mul_pos hm hm) (mul_pos hm hm)]
    rw [e]
    have := mul_le_mul_of_nonneg_left key (show 0 ≤ 8 / π ^ 3 by positivity)
    nlinarith

/-- More terms change `exact` by less than the cutoff, at all times and points. -/
theorem exact_diff {nu Re t : ℝ} (hnu : 0 < nu) (hRe : 0 < Re) (ht : 0 ≤ t) (x : ℝ) {M M' : ℕ} (hM : 0 < M) (h : M ≤ M') :
    |exact nu x Re t M' - exact nu x Re t M| ≤ cutoff nu Re M := by
  obtain ⟨k, rfl⟩ := Nat.exists_eq_add_of_le h
  have e : exact nu x Re t (M + k) - exact nu x Re t M = -(4 / (nu * Re) * ∑ m ∈ range (2 * k), mode nu t x (2 * M + m)) := by
    rw [exact_eq, exact_eq, mul_add, sum_range_add]; ring
  rw [e, abs_neg, abs_mul, abs_of_pos (show 0 < 4 / (nu * Re) by positivity)]
  have h1 : |∑ m ∈ range (2 * k), mode nu t x (2 * M + m)| ≤ 8 / π ^ 3 * (1 / (16 * ((2 * M : ℕ) : ℝ) ^ 2)) := by
    refine (abs_sum_le_sum_abs _ _).trans ((sum_le_sum fun m _ => mode_abs hnu.le ht x _).trans ((cubes (2 * M) (2 * k) (by omega)).trans ?_))
    refine mul_le_mul_of_nonneg_left ?_ (by positivity)
    have : 0 ≤ 1 / (16 * ((2 * M + 2 * k : ℕ) : ℝ) ^ 2) := by positivity
    linarith
  refine (mul_le_mul_of_nonneg_left h1 (by positivity)).trans (le_of_eq ?_)
  have hM' : (M : ℝ) ≠ 0 := by exact_mod_cast hM.ne'
  unfold cutoff
  push_cast
  field_simp
  norm_num

theorem exact_rest {nu Re : ℝ} (hnu : 0 < nu) (hRe : 0 < Re) {x : ℝ} (hx : |x| ≤ 1) {M : ℕ} (hM : 0 < M) : |exact nu x Re 0 M| ≤ cutoff nu Re M := by
  have h := ((C74_exact_start nu Re x (neg_le_of_abs_le hx) (le_of_abs_le hx)).sub_const (exact nu x Re 0 M)).abs
  rw [zero_sub, abs_neg] at h
  exact le_of_tendsto h (eventually_atTop.2 ⟨M, fun M' h => exact_diff hnu hRe le_rfl x hM h⟩)

/-- Amplitudes of the cosines in `exact`. -/
noncomputable def amp (nu Re : ℝ) (m : ℕ) : ℝ := -(4 / (nu * Re)) * ((-1) ^ m / lam m ^ 3)

theorem exact_amp (nu x Re t : ℝ) (M : ℕ) :
    exact nu x Re t M = 1 / (nu * Re) * (1 - x ^ 2) + ∑ m ∈ range (2 * M), amp nu Re m * exp (-rate nu m * t) * cos (lam m * x) := by
  rw [exact_eq, mul_sum, sub_eq_add_neg, ← sum_neg_distrib]
  congr 1
  refine sum_congr rfl fun m _ => ?_
  unfold amp mode rate
  rw [neg_mul nu]; ring

/-! ## The error of a sequence of profiles -/

/-- Factor of the square of the time step in the error. -/
noncomputable def timeConst (nu Re : ℝ) (M : ℕ) : ℝ :=
  ∑ m ∈ range (2 * M), |amp nu Re m| * (exp (rate nu m) * rate nu m ^ 2 * (1 + 2 * Heat.tail (lam m) 0))

/-- Error of the polynomials of the wall-normal direction. -/
noncomputable def spaceErr (nu Re : ℝ) (M n : ℕ) : ℝ :=
  ∑ m ∈ range (2 * M), |amp nu Re m| * ((4 + 3 * exp (rate nu m)) * Heat.tail (lam m) (n / 2 + 1))

theorem tail_le_zero (l : ℝ) (d : ℕ) : Heat.tail l d ≤ Heat.tail l 0 := by
  induction d with
  | zero => exact le_rfl
  | succ d ih => exact (tail_anti l d).trans ih

theorem tail_scale (l : ℝ) {r : ℝ} (hr : 1 ≤ r) (d : ℕ) : r ^ (2 * d) * Heat.tail l d ≤ Heat.tail (r * l) d := by
  unfold Heat.tail
  rw [← tsum_mul_left]
  have hs := fun l : ℝ => (summable_nat_add_iff d).2 (cosh_summable l)
  refine ((hs l).mul_left _).tsum_le_tsum (fun k => ?_) (hs (r * l))
  rw [mul_div_assoc', mul_pow]
  refine div_le_div_of_nonneg_right (mul_le_mul_of_nonneg_right (pow_le_pow_right₀ hr (by omega)) ?_) (by positivity)
  rw [pow_mul]; positivity

theorem half_tendsto : Tendsto (fun n : ℕ => n / 2 + 1) atTop atTop :=
  tendsto_atTop.2 fun b => eventually_atTop.2 ⟨2 * b, fun n h => by omega⟩

/-- The error of the polynomials tends to zero faster than any geometric sequence. -/
theorem spaceErr_tendsto (nu Re : ℝ) (M : ℕ) (r : ℝ) : Tendsto (fun n => r ^ n * spaceErr nu Re M n) atTop (𝓝 0) := by
  have key : ∀ m, Tendsto (fun n : ℕ => r ^ n * Heat.tail (lam m) (n / 2 + 1)) atTop (𝓝 0) := by
    intro m
    have hr : 1 ≤ max 1 |r| := le_max_left _ _
    refine squeeze_zero_norm (fun n => ?_) ((tail_tendsto (max 1 |r| * lam m)).comp half_tendsto)
    have ht := tail_nonneg (lam m) (n / 2 + 1)
    rw [norm_mul, norm_pow, norm_eq_abs, norm_eq_abs, abs_of_nonneg ht]
    refine (mul_le_mul_of_nonneg_right ?_ ht).trans (tail_scale _ hr _)
    exact (pow_le_pow_left₀ (abs_nonneg _) (le_max_right _ _) n).trans (pow_le_pow_right₀ hr (by omega))
  have h : Tendsto (fun n : ℕ => ∑ m ∈ range (2 * M), |amp nu Re m| * (4 + 3 * exp (rate nu m)) * (r ^ n * Heat.tail (lam m) (n / 2 + 1))) atTop
      (𝓝 (∑ m ∈ range (2 * M), |amp nu Re m| * (4 + 3 * exp (rate nu m)) * 0)) := tendsto_finset_sum _ fun m _ => (key m).const_mul _
  simp only [mul_zero, sum_const_zero] at h
  refine h.congr fun n => ?_
  rw [spaceErr, mul_sum]
  exact sum_congr rfl fun m _ => by ring

section Profile

variable (q : Quad) (n : ℕ) {nu Re H : ℝ} (hnu : 0 < nu) (hRe : 0 < Re) (hH0 : 0 ≤ H) (hH : H ≤ 1) {M : ℕ} (hM : 0 < M)

include hnu hRe hH0 hH hM in
theorem profile_error (vP : Fin (n + 2) → ℂ) (hP : expandC phi vP = Galerkin.parabola nu Re) (dt : ℝ) (v : ℕ → Fin (n + 2) → ℂ) (h0 : v 0 = 0)
    (y : ℕ → Fin (n + 2) → ℂ) (hy : ∀ m, expandC phi (y m) = (approx (lam m) (n / 2 + 1)).map Complex.ofRealHom)
    (hstep : ∀ i t, ‖samp q (n + 4) (pol (expandC phi (v (i + 1) - vP - target n (2 * M) nu (amp nu Re) y (t + dt))))‖ +
        left (n / 2 + 1) (2 * M) nu H (amp nu Re) (t + dt) ≤
      ‖samp q (n + 4) (pol (expandC phi (v i - vP - target n (2 * M) nu (amp nu Re) y t)))‖ + left (n / 2 + 1) (2 * M) nu H (amp nu Re) t) (hdt : 0 ≤ dt) (i : ℕ) :
    ‖samp q (n + 4) (fun x => pol (expandC phi (v i)) x - (exact nu x Re (i * dt) M : ℝ))‖ ≤
      sqrt π * (cutoff nu Re M + timeConst nu Re M * H ^ 2 + spaceErr nu Re M n) := by
  set d := n / 2 + 1 with hd
  set Q := target n (2 * M) nu (amp nu Re) y with hQ
  have hN : 2 ≤ n + 4 := by omega
  have hpar : ∀ x : ℝ, pol (expandC phi vP) x = ((1 / (nu * Re) * (1 - x ^ 2) : ℝ) : ℂ) := fun x => by
    rw [pol, hP]; simp [Galerkin.parabola]
  have htl := fun m => tail_nonneg (lam m) d
  -- error of the polynomials at one time
  have hsp : ∀ t, 0 ≤ t → ∀ x : ℝ, |x| ≤ 1 →
      |(∑ m ∈ range (2 * M), amp nu Re m * exp (-rate nu m * t) * (approx (lam m) d).eval x) -
        ∑ m ∈ range (2 * M), amp nu Re m * exp (-rate nu m * t) * cos (lam m * x)| ≤ ∑ m ∈ range (2 * M), |amp nu Re m| * (2 * Heat.tail (lam m) d) := by
    intro t ht x hx
    rw [← sum_sub_distrib]
    refine (abs_sum_le_sum_abs _ _).trans (sum_le_sum fun m _ => ?_)
    rw [← mul_sub, abs_mul, abs_mul, abs_of_pos (exp_pos _)]
    have h1 : exp (-rate nu m * t) ≤ 1 := exp_le_one_iff.2 (by have := mul_nonneg (rate_pos hnu m).le ht; linarith)
    have h2 := approx_error (cos_lam m) d hx
    have h3 : |amp nu Re m| * exp (-rate nu m * t) ≤ |amp nu Re m| := mul_le_of_le_one_right (abs_nonneg _) h1
    exact mul_le_mul h3 h2 (abs_nonneg _) (abs_nonneg _)
  have hS0 : 0 ≤ ∑ m ∈ range (2 * M), |amp nu Re m| * (2 * Heat.tail (lam m) d) :=
    sum_nonneg fun m _ => mul_nonneg (abs_nonneg _) (by linarith [htl m])
  have hpt : ∀ t x : ℝ, pol (expandC phi (vP + Q t)) x - (exact nu x Re t M : ℝ) =
      (((∑ m ∈ range (2 * M), amp nu Re m * exp (-rate nu m * t) * (approx (lam m) d).eval x) -
        ∑ m ∈ range (2 * M), amp nu Re m * exp (-rate nu m * t) * cos (lam m * x) : ℝ) : ℂ) := by
    intro t x
    have : pol (expandC phi (vP + Q t)) x = pol (expandC phi vP) x + (expandC phi (Q t)).eval (x : ℂ) := by simp [pol]
    rw [this, hpar, hQ, target_eval n d (2 * M) nu (amp nu Re) y hy, exact_amp]
    push_cast; ring
  -- the potential
  have hmono : ∀ i : ℕ, ‖samp q (n + 4) (pol (expandC phi (v i - vP - Q (i * dt))))‖ + left d (2 * M) nu H (amp nu Re) (i * dt) ≤
      ‖samp q (n + 4) (pol (expandC phi (v 0 - vP - Q 0)))‖ + left d (2 * M) nu H (amp nu Re) 0 := by
    intro i
    induction i with
    | zero => simp
    | succ i ih =>
      have h := hstep i (i * dt)
      have e : ((i + 1 : ℕ) : ℝ) * dt = i * dt + dt := by push_cast; ring
      rw [e]
      exact h.trans ih
  have hstart : ‖samp q (n + 4) (pol (expandC phi (v 0 - vP - Q 0)))‖ ≤
      sqrt π * (cutoff nu Re M + ∑ m ∈ range (2 * M), |amp nu Re m| * (2 * Heat.tail (lam m) d)) := by
    refine samp_le q (n + 4) hN (add_nonneg (by unfold cutoff; positivity) hS0) (fun x hx => ?_) fun j => quadPoint_le q _ j
    have e : pol (expandC phi (v 0 - vP - Q 0)) x = -(((exact nu x Re 0 M : ℝ) : ℂ) + (pol (expandC phi (vP + Q 0)) x - (exact nu x Re 0 M : ℝ))) := by
      rw [h0, show (0 : Fin (n + 2) → ℂ) - vP - Q 0 = -(vP + Q 0) by abel]
      simp [pol]
    rw [e, norm_neg, hpt]
    refine (norm_add_le _ _).trans (add_le_add ?_ ?_)
    · rw [Complex.norm_real, norm_eq_abs]; exact exact_rest hnu hRe hx hM
    · rw [Complex.norm_real, norm_eq_abs]; exact hsp 0 le_rfl x hx
  have hend : ‖samp q (n + 4) (fun x => pol (expandC phi (vP + Q (i * dt))) x - (exact nu x Re (i * dt) M : ℝ))‖ ≤
      sqrt π * ∑ m ∈ range (2 * M), |amp nu Re m| * (2 * Heat.tail (lam m) d) := by
    refine samp_le q (n + 4) hN hS0 (fun x hx => ?_) fun j => quadPoint_le q _ j
    rw [hpt, Complex.norm_real, norm_eq_abs]
    exact hsp _ (by positivity) x hx
  have hleft : left d (2 * M) nu H (amp nu Re) 0 ≤ sqrt π * (timeConst nu Re M * H ^ 2 +
      ∑ m ∈ range (2 * M), |amp nu Re m| * (3 * exp (rate nu m) * Heat.tail (lam m) d)) := by
    unfold Heat.left timeConst
    rw [sum_mul, ← sum_add_distrib]
    refine mul_le_mul_of_nonneg_left (sum_le_sum fun m _ => ?_) (sqrt_nonneg _)
    have hr := rate_pos hnu m
    rw [mul_zero, exp_zero, mul_one, mul_assoc, ← mul_add]
    refine mul_le_mul_of_nonneg_left ?_ (abs_nonneg _)
    have h1 : exp (rate nu m * H) ≤ exp (rate nu m) := exp_le_exp.2 (mul_le_of_le_one_right hr.le hH)
    have h2 := tail_le_zero (lam m) d
    have h3 := htl m
    unfold resid
    calc exp (rate nu m * H) / rate nu m * (rate nu m ^ 3 * H ^ 2 * (1 + 2 * Heat.tail (lam m) d) + rate nu m * (3 * Heat.tail (lam m) d))
        = exp (rate nu m * H) * (rate nu m ^ 2 * H ^ 2 * (1 + 2 * Heat.tail (lam m) d) + 3 * Heat.tail (lam m) d) := by field_simp
      _ ≤ exp (rate nu m) * (rate nu m ^ 2 * H ^ 2 * (1 + 2 * Heat.tail (lam m) 0) + 3 * Heat.tail (lam m) d) := by
          gcongr
      _ = _ := by ring
  have hl0 : 0 ≤ left d (2 * M) nu H (amp nu Re) (i * dt) := by
    unfold Heat.left
    exact mul_nonneg (sqrt_nonneg _) (sum_nonneg fun m _ => mul_nonneg (mul_nonneg (abs_nonneg _) (mul_nonneg (div_nonneg (exp_pos _).le (rate_pos hnu m).le)
      (resid_nonneg d nu H hnu m))) (exp_pos _).le)
  have hsum : samp q (n + 4) (fun x => pol (expandC phi (v i)) x - (exact nu x Re (i * dt) M : ℝ)) =
      samp q (n + 4) (pol (expandC phi (v i - vP - Q (i * dt)))) +
      samp q (n + 4) (fun x => pol (expandC phi (vP + Q (i * dt))) x - (exact nu x Re (i * dt) M : ℝ)) := by
    rw [← samp_add]
    refine congrArg (samp q (n + 4)) (_root_.funext fun x => ?_)
    simp [pol]
    ring
  have hsE : spaceErr nu Re M n = ∑ m ∈ range (2 * M), |amp nu Re m| * (2 * Heat.tail (lam m) d) + ∑ m ∈ range (2 * M), |amp nu Re m| * (2 * Heat.tail (lam m) d) +
      ∑ m ∈ range (2 * M), |amp nu Re m| * (3 * exp (rate nu m) * Heat.tail (lam m) d) := by
    rw [spaceErr, ← sum_add_distrib, ← sum_add_distrib]
    exact sum_congr rfl fun m _ => by ring
  rw [hsum, hsE]
  refine (norm_add_le _ _).trans ?_
  have := hmono i
  nlinarith

end Profile

/-! ## The printed number -/

theorem quadPoint_end (N : ℕ) (hN : 2 ≤ N) : quadPoint .GL N 0 = 1 ∧ quadPoint .GL N (N - 1) = -1 := by
  constructor
  · simp [quadPoint]
  · have : ((N - 1 : ℕ) : ℝ) = (N : ℝ) - 1 := by rw [Nat.cast_sub (by omega)]; simp
    have h0 : (N : ℝ) - 1 ≠ 0 := by
      have : (2 : ℝ) ≤ N := by exact_mod_cast hN
      linarith
    rw [quadPoint, this, mul_div_assoc, div_self h0, mul_one, cos_pi]

/-- Root mean square over the points of the difference between values and a function. -/
noncomputable def rms {N : ℕ} (x u : Fin N → ℝ) (g : ℝ → ℝ) : ℝ := sqrt ((∑ j, (u j - g (x j)) ^ 2) / N)

theorem rms_le (q : Quad) (N : ℕ) (hN : 2 ≤ N) (u : Fin N → ℝ) (f : ℝ → ℂ) (g : ℝ → ℝ) (hu : ∀ j : Fin N, u j = (f (quadPoint q N j)).re)
    (h1 : f 1 = 0) (h2 : f (-1) = 0) (w1 : g 1 = 0) (w2 : g (-1) = 0) {B : ℝ} (hB : 0 ≤ B) (h : ‖samp q N (fun x => f x - (g x : ℝ))‖ ≤ sqrt π * B) :
    rms (fun j => quadPoint q N j) u g ≤ B := by
  unfold rms
  refine (sqrt_le_left hB).2 ?_
  have hN0 : (0 : ℝ) < N := by exact_mod_cast (by omega : 0 < N)
  have hsq : ∑ j ∈ range N, quadWeight q N j * ‖f (quadPoint q N j) - (g (quadPoint q N j) : ℝ)‖ ^ 2 ≤ π * B ^ 2 := by
    rw [← samp_sq q N hN fun x => f x - (g x : ℝ)]
    refine (pow_le_pow_left₀ (norm_nonneg _) h 2).trans (le_of_eq ?_)
    rw [mul_pow, sq_sqrt pi_pos.le]
  rw [div_le_iff₀ hN0]
  have key : ∀ j : Fin N, π * (u j - g (quadPoint q N j)) ^ 2 ≤ N * (quadWeight q N j * ‖f (quadPoint q N j) - (g (quadPoint q N j) : ℝ)‖ ^ 2) := by
    intro j
    have hle : (u j - g (quadPoint q N j)) ^ 2 ≤ ‖f (quadPoint q N j) - (g (quadPoint q N j) : ℝ)‖ ^ 2 := by
      have h := Complex.abs_re_le_norm (f (quadPoint q N j) - (g (quadPoint q N j) : ℝ))
      rw [Complex.sub_re, Complex.ofReal_re, ← hu] at h
      rw [← sq_abs]
      exact pow_le_pow_left₀ (abs_nonneg _) h 2
    have hpi := pi_pos
    cases q
    · rw [quadWeight, ← mul_assoc, mul_div_cancel₀ _ hN0.ne']
      exact mul_le_mul_of_nonneg_left hle hpi.le
    · by_cases hj : (j : ℕ) = 0 ∨ (j : ℕ) = N - 1
      · have hz : u j - g (quadPoint .GL N j) = 0 := by
          obtain ⟨p1, p2⟩ := quadPoint_end N hN
          rcases hj with hj | hj
          · rw [hu, hj, p1, h1, w1]; simp
          · rw [hu, hj, p2, h2, w2]; simp
        rw [hz, zero_pow two_ne_zero, mul_zero]
        exact mul_nonneg hN0.le (mul_nonneg (quadWeight_pos .GL N hN j).le (sq_nonneg _))
      · rw [quadWeight, if_neg hj, ← mul_assoc]
        have hN1 : (0 : ℝ) < N - 1 := by
          have : (2 : ℝ) ≤ N := by exact_mod_cast hN
          linarith
        have hw : π ≤ N * (π / (N - 1)) := by
          rw [mul_div_assoc', le_div_iff₀ hN1]
          nlinarith
        exact mul_le_mul hw hle (sq_nonneg _) (by positivity)
  have hs : π * ∑ j, (u j - g (quadPoint q N j)) ^ 2 ≤ N * (π * B ^ 2) := by
    rw [mul_sum]
    refine (sum_le_sum fun j _ => key j).trans ?_
    rw [← mul_sum, Fin.sum_univ_eq_sum_range fun j => quadWeight q N j * ‖f (quadPoint q N j) - (g (quadPoint q N j) : ℝ)‖ ^ 2]
    exact mul_le_mul_of_nonneg_left hsq hN0.le
  have hpi := pi_pos
  nlinarith

/-! ## The start-up flow -/

/-- Classical solutions differ from `exact` by less than the cutoff. -/
theorem startup_exact {nu Re : ℝ} (hnu : 0 < nu) (hRe : 0 < Re) {u : ℝ → ℝ → ℝ} (hu : Spec.StartUp nu Re u) {M : ℕ} (hM : 0 < M) {t x : ℝ} (ht : 0 ≤ t)
    (hx : |x| ≤ 1) : |u t x - exact nu x Re t M| ≤ cutoff nu Re M := by
  obtain ⟨ux, uxx, hd⟩ := hu.eqn
  obtain ⟨ex, exx, h1, h2, h3⟩ := C74_exact_equation nu Re hnu.ne' M
  have hce : Continuous fun p : ℝ × ℝ => exact nu p.2 Re p.1 M := by
    simp only [exact_eq, mode]
    refine (continuous_const.mul (continuous_const.sub (continuous_snd.pow 2))).sub (continuous_const.mul (continuous_finset_sum _ fun m _ => ?_))
    exact ((continuous_const.mul (continuous_cos.comp (continuous_const.mul continuous_snd))).mul
      (continuous_exp.comp (continuous_const.mul continuous_fst))).div_const _
  have hc0 : 0 ≤ cutoff nu Re M := by unfold cutoff; positivity
  have hx' : x ∈ Set.Icc (-1 : ℝ) 1 := ⟨neg_le_of_abs_le hx, le_of_abs_le hx⟩
  have hr : ∀ x ∈ Set.Icc (-1 : ℝ) 1, |exact nu x Re 0 M| ≤ cutoff nu Re M := fun x hx => exact_rest hnu hRe (abs_le.2 hx) hM
  have w := C74_exact_walls nu Re
  refine abs_le.2 ⟨?_, ?_⟩
  · have := heat_max (c := cutoff nu Re M) hnu.le (w := fun t x => exact nu x Re t M - u t x) (hce.continuousOn.sub hu.cont)
      (fun x hx => by rw [hu.rest x hx, sub_zero]; exact (abs_le.1 (hr x hx)).2)
      (fun t ht => by rw [(w t M).1, (w t M).2, (hu.walls t ht).1, (hu.walls t ht).2, sub_zero]; exact ⟨hc0, hc0⟩)
      (wx := fun t x => ex t x - ux t x) (wxx := fun t x => exx t x - uxx t x)
      (fun t ht x hx => ⟨(h1 t x).sub (hd t ht x hx).1, (h2 t x).sub (hd t ht x hx).2.1, ((h3 t x).sub (hd t ht x hx).2.2).congr_deriv (by ring)⟩) t ht x hx'
    linarith
  · exact heat_max (c := cutoff nu Re M) hnu.le (w := fun t x => u t x - exact nu x Re t M) (hu.cont.sub hce.continuousOn)
      (fun x hx => by rw [hu.rest x hx, zero_sub]; exact neg_le.1 (abs_le.1 (hr x hx)).1)
      (fun t ht => by rw [(w t M).1, (w t M).2, (hu.walls t ht).1, (hu.walls t ht).2, sub_zero]; exact ⟨hc0, hc0⟩)
      (wx := fun t x => ux t x - ex t x) (wxx := fun t x => uxx t x - exx t x)
      (fun t ht x hx => ⟨(hd t ht x hx).1.sub (h1 t x), (hd t ht x hx).2.1.sub (h2 t x), ((hd t ht x hx).2.2.sub (h3 t x)).congr_deriv (by ring)⟩) t ht x hx'

theorem cutoff_tendsto (nu Re : ℝ) : Tendsto (cutoff nu Re) atTop (𝓝 0) := by
  have h : Tendsto (fun M : ℕ => (M : ℝ) ^ 2) atTop atTop := (tendsto_pow_atTop two_ne_zero).comp tendsto_natCast_atTop_atTop
  exact tendsto_const_nhds.div_atTop (h.const_mul_atTop (by positivity))

/-- C115: the start-up of the flow between the walls under the force of the demo has one and only one classical solution, and `exact` tends to it
with the number of terms, within `1/(2 pi^3 num_terms^2 nu Re)`. -/
theorem C115_startup {nu Re : ℝ} (hnu : 0 < nu) (hRe : 0 < Re) :
    (∃ u, Spec.StartUp nu Re u) ∧
    ∀ u, Spec.StartUp nu Re u → ∀ t, 0 ≤ t → ∀ x, |x| ≤ 1 →
      (∀ u', Spec.StartUp nu Re u' → u' t x = u t x) ∧ (∀ M : ℕ, 0 < M → |exact nu x Re t M - u t x| ≤ 1 / (nu * Re) / (2 * π ^ 3 * M ^ 2)) ∧
      Tendsto (fun M => exact nu x Re t M) atTop (𝓝 (u t x)) := by
  refine ⟨⟨_, series_solves hnu hRe.ne'⟩, fun u hu t ht x hx => ?_⟩
  have lim : ∀ u, Spec.StartUp nu Re u → Tendsto (fun M => exact nu x Re t M) atTop (𝓝 (u t x)) := fun u hu => by
    rw [tendsto_iff_norm_sub_tendsto_zero]
    refine squeeze_zero' (Eventually.of_forall fun M => norm_nonneg _) (eventually_atTop.2 ⟨1, fun M hM => ?_⟩) (cutoff_tendsto nu Re)
    rw [norm_eq_abs, abs_sub_comm]
    exact startup_exact hnu hRe hu hM ht hx
  refine ⟨fun u' hu' => tendsto_nhds_unique (lim u' hu') (lim u hu), fun M hM => ?_, lim u hu⟩
  rw [abs_sub_comm]
  exact startup_exact hnu hRe hu hM ht hx

/-! ## The runs -/

section Runs

open Periodic

variable {N P : Fin 2 → ℕ}

/-- In a flow without variation along the walls the values at the grid points are those of the mean profile. -/
theorem column (q : Quad) (n : ℕ) (z : RModes N) (hz : ∀ i, waves N i z = 0) (a : RModes N → Fin (n + 2) → ℂ) (ha : ∀ k, k ≠ z → a k = 0) (j : Fin (n + 4))
    (p : Periodic.Grid N) : bwdD (chebWall q n) (rspace N N) a j p = (pol (expandC phi (a z)) (quadPoint q (n + 4) j)).re := by
  have hw : rweight N z = 1 := by
    rw [rweight, if_pos]
    have := hz (Fin.last 1)
    simp only [waves] at this
    left
    exact_mod_cast this
  simp only [bwdD, synth, rspace, dft]
  rw [Finset.sum_eq_single z]
  · simp [kernel, hz, hw, chebWall, pol]
  · intro k _ hk
    rw [ha k hk]; simp
  · simp

theorem expandC_walls {a : ℕ} (v : Fin a → ℂ) : pol (expandC phi v) 1 = 0 ∧ pol (expandC phi v) (-1) = 0 := by
  simp only [pol, expandC_eval]
  obtain ⟨r, hr⟩ := expand_phi fun j => (v j).re
  obtain ⟨s, hs⟩ := expand_phi fun j => (v j).im
  rw [hr, hs]
  constructor <;> simp

/-- The settings of the demo: the Chebyshev-Galerkin matrices, a form of the convection, the source of `set_Source`. -/
structure Demo (q : Quad) (n : ℕ) (N P : Fin 2 → ℕ) (nu Re : ℝ) (kind : ConvKind) (c : Ctx (RModes N) (Fin n → ℂ) (Fin (n + 2) → ℂ)) : Prop where
  hN : ∀ i, 0 < N i
  hP : ∀ i, N i ≤ P i
  nu : c.nu = nu
  dt : 0 < c.dt
  M : c.M = chebMats q n
  K1 : c.G.K1 c.G.zero = 0
  K2 : c.G.K2 c.G.zero = 0
  zero : ∀ i, waves N i c.G.zero = 0
  conv : c.conv = convection kind (chebWall q n) (rspace N P) c.G
  Sk : c.Sk = set_Source (scalarProduct q (n + 4) phi) Re

/-- Bound for the error of a run. -/
noncomputable def errBound (nu Re : ℝ) (M n : ℕ) (dt : ℝ) : ℝ := cutoff nu Re M + timeConst nu Re M * dt ^ 2 + spaceErr nu Re M n

theorem timeConst_nonneg (nu Re : ℝ) (M : ℕ) : 0 ≤ timeConst nu Re M := sum_nonneg fun m _ => mul_nonneg (abs_nonneg _) (by
  have := tail_nonneg (lam m) 0
  have := exp_pos (rate nu m)
  positivity)

theorem errBound_nonneg {nu Re : ℝ} (hnu : 0 < nu) (hRe : 0 < Re) (M n : ℕ) (dt : ℝ) : 0 ≤ errBound nu Re M n dt := by
  have h3 := timeConst_nonneg nu Re M
  have h4 : 0 ≤ spaceErr nu Re M n := sum_nonneg fun m _ => mul_nonneg (abs_nonneg _) (by
    have := tail_nonneg (lam m) (n / 2 + 1)
    have := exp_pos (rate nu m)
    positivity)
  unfold errBound cutoff
  positivity

/-- The values that the demo compares are those of a function close to `exact` that vanishes at the walls. -/
def CloseTo (q : Quad) (n : ℕ) (nu Re : ℝ) (M : ℕ) (dt t : ℝ) (u : Fin (n + 4) → ℝ) : Prop :=
  ∃ f : ℝ → ℂ, (∀ j : Fin (n + 4), u j = (f (quadPoint q (n + 4) j)).re) ∧ f 1 = 0 ∧ f (-1) = 0 ∧
    ‖samp q (n + 4) (fun x => f x - (exact nu x Re t M : ℝ))‖ ≤ sqrt π * errBound nu Re M n dt

theorem CloseTo.printed {q : Quad} {n : ℕ} {nu Re : ℝ} (hnu : 0 < nu) (hRe : 0 < Re) {M : ℕ} {dt t : ℝ} {u : Fin (n + 4) → ℝ}
    (h : CloseTo q n nu Re M dt t u) : printedError (fun j => quadPoint q (n + 4) j) u nu Re t M ≤ errBound nu Re M n dt := by
  obtain ⟨f, hu, h1, h2, hf⟩ := h
  obtain ⟨w1, w2⟩ := C74_exact_walls nu Re t M
  exact rms_le q (n + 4) (by omega) u f (fun x => exact nu x Re t M) hu h1 h2 w1 w2 (errBound_nonneg hnu hRe M n dt) hf

theorem CloseTo.flow {q : Quad} {n : ℕ} {nu Re : ℝ} (hnu : 0 < nu) (hRe : 0 < Re) {M : ℕ} (hM : 0 < M) {dt t : ℝ} (ht : 0 ≤ t) {u : Fin (n + 4) → ℝ}
    (h : CloseTo q n nu Re M dt t u) {v : ℝ → ℝ → ℝ} (hv : Spec.StartUp nu Re v) :
    rms (fun j => quadPoint q (n + 4) j) u (v t) ≤ errBound nu Re M n dt + cutoff nu Re M := by
  obtain ⟨f, hu, h1, h2, hf⟩ := h
  have hc0 : 0 ≤ cutoff nu Re M := by unfold cutoff; positivity
  refine rms_le q (n + 4) (by omega) u f (v t) hu h1 h2 (hv.walls t ht).1 (hv.walls t ht).2 (add_nonneg (errBound_nonneg hnu hRe M n dt) hc0) ?_
  have e : samp q (n + 4) (fun x => f x - (v t x : ℝ)) = samp q (n + 4) (fun x => f x - (exact nu x Re t M : ℝ)) -
      samp q (n + 4) (fun x => ((v t x - exact nu x Re t M : ℝ) : ℂ)) := by
    rw [← samp_sub]
    refine congrArg (samp q (n + 4)) (_root_.funext fun x => ?_)
    push_cast; ring
  rw [e, mul_add]
  refine (norm_sub_le _ _).trans (add_le_add hf ?_)
  refine samp_le q (n + 4) (by omega) hc0 (fun x hx => ?_) fun j => quadPoint_le q _ j
  rw [Complex.norm_real, norm_eq_abs]
  exact startup_exact hnu hRe hv hM ht hx

open Classical in
theorem kmm_close {q : Quad} {n : ℕ} {N P : Fin 2 → ℕ} {nu Re : ℝ} {kind : ConvKind} {c : Ctx (RModes N) (Fin n → ℂ) (Fin (n + 2) → ℂ)}
    (h : Demo q n N P nu Re kind c) (hnu : 0 < nu) (hRe : 0 < Re) (hdt1 : c.dt ≤ 1) {M : ℕ} (hM : 0 < M)
    (la : LA (RModes N) (Fin n → ℂ) (Fin (n + 2) → ℂ)) (hla : la.Solves c.nu c.dt c.G c.M) (i : ℕ) (p : Periodic.Grid N) :
    CloseTo q n nu Re M c.dt (i * c.dt) fun j => velocity (chebWall q n) (rspace N N) ((tick c la id)^[i] start).U 1 j p := by
  obtain ⟨hN, hP, rfl, hdt, hcM, h1, h2, hz, hconv, hSk⟩ := h
  have hT := rspace_flat N P hN hP c.G.zero hz
  have step := C74_kmm (W := chebWall q n) (T := rspace N P) c la hnu.ne' hdt.ne' hla h1 h2 hT kind hconv start start_laminar
  obtain ⟨vP, hvP, hbal⟩ := Galerkin.force_balance q n c hcM Re hRe.ne' hnu.ne' hSk
  choose y hy using fun m => exists_coeffs n (n / 2 + 1) (by omega) (lam m)
  have hprof := profile_error q n hnu hRe hdt.le hdt1 hM vP hvP c.dt (fun i => ((tick c la id)^[i] start).U.v c.G.zero) rfl y hy (fun i t =>
    step_error q n (n / 2 + 1) (2 * M) c.nu c.dt (amp c.nu Re) y hnu hy hdt.le le_rfl _ _ (hbal _ _ _ (step i).2.2.1)) hdt.le i
  exact ⟨pol (expandC phi (((tick c la id)^[i] start).U.v c.G.zero)), fun j => column q n c.G.zero hz _ (fun k hk => ((step i).1 k).2 hk |>.1) j p,
    (expandC_walls _).1, (expandC_walls _).2, hprof⟩

open Classical in
theorem kmmrk3_close {q : Quad} {n : ℕ} {N P : Fin 2 → ℕ} {nu Re : ℝ} {kind : ConvKind} {c : Ctx (RModes N) (Fin n → ℂ) (Fin (n + 2) → ℂ)}
    (h : Demo q n N P nu Re kind c) (hnu : 0 < nu) (hRe : 0 < Re) (hdt1 : c.dt ≤ 1) {M : ℕ} (hM : 0 < M)
    (la : Fin 3 → LA (RModes N) (Fin n → ℂ) (Fin (n + 2) → ℂ)) (hla : ∀ rk, (la rk).Solves3 c.nu c.dt (rkA rk + rkB rk) c.G c.M) (i : ℕ) (p : Periodic.Grid N) :
    CloseTo q n nu Re M c.dt (i * c.dt) fun j => velocity (chebWall q n) (rspace N N) ((tick3 c la id)^[i] start3).U 1 j p := by
  obtain ⟨hN, hP, rfl, hdt, hcM, h1, h2, hz, hconv, hSk⟩ := h
  have hT := rspace_flat N P hN hP c.G.zero hz
  have step := C74_kmmrk3 (W := chebWall q n) (T := rspace N P) c la hnu.ne' hdt.ne' hla h1 h2 hT kind hconv start3 ⟨rfl, fun _ _ => rfl, fun _ _ => rfl⟩ rfl
  obtain ⟨vP, hvP, hbal⟩ := Galerkin.force_balance q n c hcM Re hRe.ne' hnu.ne' hSk
  choose y hy using fun m => exists_coeffs n (n / 2 + 1) (by omega) (lam m)
  have hprof := profile_error q n hnu hRe hdt.le hdt1 hM vP hvP c.dt (fun i => ((tick3 c la id)^[i] start3).U.v c.G.zero) rfl y hy (fun i t => by
    obtain ⟨u, u', s1, s2, s3⟩ := (step i).2.2.1
    have a1 := step_error q n (n / 2 + 1) (2 * M) c.nu c.dt (amp c.nu Re) y hnu hy (t := t) (by positivity) (by linarith) _ _ (hbal _ _ _ s1)
    have a2 := step_error q n (n / 2 + 1) (2 * M) c.nu c.dt (amp c.nu Re) y hnu hy (t := t + 8 / 15 * c.dt) (by positivity) (by linarith) _ _ (hbal _ _ _ s2)
    have a3 := step_error q n (n / 2 + 1) (2 * M) c.nu c.dt (amp c.nu Re) y hnu hy (t := t + 8 / 15 * c.dt + 2 / 15 * c.dt) (by positivity) (by linarith) _ _
      (hbal _ _ _ s3)
    rw [show t + 8 / 15 * c.dt + 2 / 15 * c.dt + 1 / 3 * c.dt = t + c.dt by ring] at a3
    exact a3.trans (a2.trans a1)) hdt.le i
  exact ⟨pol (expandC phi (((tick3 c la id)^[i] start3).U.v c.G.zero)), fun j => column q n c.G.zero hz _ (fun k hk => ((step i).1 k).2 hk |>.1) j p,
    (expandC_walls _).1, (expandC_walls _).2, hprof⟩

variable (nu Re : ℝ) (hnu : 0 < nu) (hRe : 0 < Re)

include hnu hRe

open Classical in
/-- C115: the error printed at any time of a KMM or KMMRK3 run is, up to what the series itself leaves out, of second order in the time step and
smaller than any geometric sequence in the number of points between the walls; the bound does not grow with the time. -/
theorem C115_printed (M : ℕ) (hM : 0 < M) : ∃ (C : ℝ) (eta : ℕ → ℝ), 0 ≤ C ∧ (∀ r : ℝ, Tendsto (fun n => r ^ n * eta n) atTop (𝓝 0)) ∧
    ∀ (q : Quad) (n : ℕ) (N P : Fin 2 → ℕ) (kind : ConvKind) (c : Ctx (RModes N) (Fin n → ℂ) (Fin (n + 2) → ℂ)), Demo q n N P nu Re kind c → c.dt ≤ 1 →
      (∀ la : LA (RModes N) (Fin n → ℂ) (Fin (n + 2) → ℂ), la.Solves c.nu c.dt c.G c.M → ∀ (i : ℕ) (p : Periodic.Grid N),
        printedError (fun j => quadPoint q (n + 4) j) (fun j => velocity (chebWall q n) (rspace N N) ((tick c la id)^[i] start).U 1 j p) nu Re (i * c.dt) M ≤
          1 / (nu * Re) / (2 * π ^ 3 * M ^ 2) + C * c.dt ^ 2 + eta n) ∧
      (∀ la : Fin 3 → LA (RModes N) (Fin n → ℂ) (Fin (n + 2) → ℂ), (∀ rk, (la rk).Solves3 c.nu c.dt (rkA rk + rkB rk) c.G c.M) →
        ∀ (i : ℕ) (p : Periodic.Grid N), printedError (fun j => quadPoint q (n + 4) j)
          (fun j => velocity (chebWall q n) (rspace N N) ((tick3 c la id)^[i] start3).U 1 j p) nu Re (i * c.dt) M ≤
          1 / (nu * Re) / (2 * π ^ 3 * M ^ 2) + C * c.dt ^ 2 + eta n) :=
  ⟨timeConst nu Re M, spaceErr nu Re M, timeConst_nonneg nu Re M, spaceErr_tendsto nu Re M, fun _ _ _ _ _ _ h hdt1 =>
    ⟨fun la hla i p => (kmm_close h hnu hRe hdt1 hM la hla i p).printed hnu hRe, fun la hla i p => (kmmrk3_close h hnu hRe hdt1 hM la hla i p).printed hnu hRe⟩⟩

open Classical in
/-- C115: the velocity of the run converges to the start-up flow, uniformly in time, when the time step is refined and points are added between the
walls, in any order. -/
theorem C115_converges (u : ℝ → ℝ → ℝ) (hu : Spec.StartUp nu Re u) (eps : ℝ) (heps : 0 < eps) : ∃ (n0 : ℕ) (h0 : ℝ), 0 < h0 ∧
    ∀ (q : Quad) (n : ℕ) (N P : Fin 2 → ℕ) (kind : ConvKind) (c : Ctx (RModes N) (Fin n → ℂ) (Fin (n + 2) → ℂ)), Demo q n N P nu Re kind c → n0 ≤ n →
      c.dt ≤ h0 →
      (∀ la : LA (RModes N) (Fin n → ℂ) (Fin (n + 2) → ℂ), la.Solves c.nu c.dt c.G c.M → ∀ (i : ℕ) (p : Periodic.Grid N),
        rms (fun j => quadPoint q (n + 4) j) (fun j => velocity (chebWall q n) (rspace N N) ((tick c la id)^[i] start).U 1 j p) (u (i * c.dt)) < eps) ∧
      (∀ la : Fin 3 → LA (RModes N) (Fin n → ℂ) (Fin (n + 2) → ℂ), (∀ rk, (la rk).Solves3 c.nu c.dt (rkA rk + rkB rk) c.G c.M) →
        ∀ (i : ℕ) (p : Periodic.Grid N),
        rms (fun j => quadPoint q (n + 4) j) (fun j => velocity (chebWall q n) (rspace N N) ((tick3 c la id)^[i] start3).U 1 j p) (u (i * c.dt)) < eps) := by
  obtain ⟨M, hM, hcut⟩ : ∃ M : ℕ, 0 < M ∧ cutoff nu Re M < eps / 4 := by
    obtain ⟨M0, h⟩ := eventually_atTop.1 ((cutoff_tendsto nu Re).eventually (gt_mem_nhds (show 0 < eps / 4 by positivity)))
    exact ⟨max M0 1, by positivity, h _ (le_max_left _ _)⟩
  have hs : Tendsto (spaceErr nu Re M) atTop (𝓝 0) := by simpa using spaceErr_tendsto nu Re M 1
  obtain ⟨n0, hn0⟩ := eventually_atTop.1 (hs.eventually (gt_mem_nhds (show 0 < eps / 4 by positivity)))
  have hC := timeConst_nonneg nu Re M
  have ht : Tendsto (fun h : ℝ => timeConst nu Re M * h ^ 2) (𝓝 0) (𝓝 0) := by
    have : Continuous fun h : ℝ => timeConst nu Re M * h ^ 2 := continuous_const.mul (continuous_pow 2)
    simpa using this.tendsto 0
  obtain ⟨d, hd, hdb⟩ := Metric.eventually_nhds_iff.1 (ht.eventually (gt_mem_nhds (show 0 < eps / 4 by positivity)))
  refine ⟨n0, min 1 (d / 2), by positivity, fun q n N P kind c h hn hdt => ?_⟩
  have hdt1 : c.dt ≤ 1 := hdt.trans (min_le_left _ _)
  have hdtd : timeConst nu Re M * c.dt ^ 2 < eps / 4 := by
    refine hdb ?_
    rw [dist_zero_right, norm_eq_abs, abs_of_pos h.dt]
    linarith [hdt.trans (min_le_right _ _)]
  have hb : errBound nu Re M n c.dt + cutoff nu Re M < eps := by
    have := hn0 n hn
    unfold errBound
    linarith
  have hti : ∀ i : ℕ, 0 ≤ (i : ℝ) * c.dt := fun i => mul_nonneg (Nat.cast_nonneg i) h.dt.le
  exact ⟨fun la hla i p => ((kmm_close h hnu hRe hdt1 hM la hla i p).flow hnu hRe hM (hti i) hu).trans_lt hb,
    fun la hla i p => ((kmmrk3_close h hnu hRe hdt1 hM la hla i p).flow hnu hRe hM (hti i) hu).trans_lt hb⟩

end Runs

/-! ## The demo -/

section Instance

open Periodic

variable (q : Quad) (n : ℕ) (N : Fin 2 → ℕ) (hN : ∀ i, 0 < N i) (dt : ℝ) (kind : ConvKind)

open Classical in
/-- The context of the demo at `Re = 800`, `nu = 1/800`. -/
noncomputable def demoCtx : Ctx (RModes N) (Fin n → ℂ) (Fin (n + 2) → ℂ) :=
  ⟨1 / 800, dt, midGrid N hN, chebMats q n, none, convection kind (chebWall q n) (rspace N N) (midGrid N hN), set_Source (scalarProduct q (n + 4) phi) 800⟩

open Classical in
theorem demo_ctx (hdt : 0 < dt) : Demo q n N N (1 / 800) 800 kind (demoCtx q n N hN dt kind) where
  hN := hN
  hP _ := le_rfl
  nu := rfl
  dt := hdt
  M := rfl
  K1 := by
    show ((waves N 0 (midGrid N hN).zero : ℤ) : ℝ) = 0
    rw [mid_waves]; simp
  K2 := by
    show ((waves N 1 (midGrid N hN).zero : ℤ) : ℝ) = 0
    rw [mid_waves]; simp
  zero := mid_waves N hN
  conv := rfl
  Sk := rfl

open Classical in
/-- The default run of the demo (64 x 32 x 4 points, `dt = 0.5`): both solvers have their linear solvers, and what they print stays below one bound. -/
example : ∃ (C : ℝ) (eta : ℕ → ℝ), (∀ r : ℝ, Tendsto (fun n => r ^ n * eta n) atTop (𝓝 0)) ∧
    ∃ la : LA (RModes ![32, 4]) (Fin 60 → ℂ) (Fin (60 + 2) → ℂ), ∀ i p,
      printedError (fun j => quadPoint .GL (60 + 4) j) (fun j => velocity (chebWall .GL 60) (rspace ![32, 4] ![32, 4])
        ((tick (demoCtx .GL 60 ![32, 4] (by decide) 0.5 .vortex) la id)^[i] start).U 1 j p) (1 / 800) 800 (i * 0.5) 400 ≤
        1 / (1 / 800 * 800) / (2 * π ^ 3 * 400 ^ 2) + C * 0.5 ^ 2 + eta 60 := by
  obtain ⟨C, eta, -, he, h⟩ := C115_printed (1 / 800) 800 (by norm_num) (by norm_num) 400 (by norm_num)
  obtain ⟨la, hla, -⟩ := Galerkin.C75_kmm .GL 60 (midGrid ![32, 4] (by decide)) (1 / 800) 0.5 (by norm_num) (by norm_num)
  refine ⟨C, eta, he, la, fun i p => ?_⟩
  have := (h .GL 60 ![32, 4] ![32, 4] .vortex _ (demo_ctx .GL 60 ![32, 4] (by decide) 0.5 .vortex (by norm_num)) (by norm_num [demoCtx])).1 la hla i p
  simpa [demoCtx] using this

/-- The start-up flow of the demo is unique, and 400 terms of its series leave an error of less than `2 * 10^-7`. -/
example : ∃ u, Spec.StartUp (1 / 800) 800 u ∧ ∀ t, 0 ≤ t → ∀ x, |x| ≤ 1 → |exact (1 / 800) x 800 t 400 - u t x| ≤ 2e-7 := by
  obtain ⟨⟨u, hu⟩, h⟩ := C115_startup (nu := 1 / 800) (Re := 800) (by norm_num) (by norm_num)
  refine ⟨u, hu, fun t ht x hx => ((h u hu t ht x hx).2.1 400 (by norm_num)).trans ?_⟩
  have h3 : (3 : ℝ) ^ 3 ≤ π ^ 3 := pow_le_pow_left₀ (by norm_num) pi_gt_three.le 3
  rw [div_le_iff₀ (by positivity)]
  norm_num at h3 ⊢
  linarith

end Instance

end SpectralDNS.Laminar

import Verif.Lemmas.HeatConv
import Verif.Lemmas.HeatApprox
import Verif.Props.LaminarExact
import Verif.Props.Galerkin

/-!
# The error of the Galerkin heat equation of the channel against a sum of decaying cosines
-/

namespace SpectralDNS.Heat

open Polynomial Finset Channel Laminar Spec.Channel Filter Topology

/-- Rate of decay of a cosine. -/
noncomputable def rate (nu : ℝ) (m : ℕ) : ℝ := nu * lam m ^ 2

theorem rate_pos {nu : ℝ} (hnu : 0 < nu) (m : ℕ) : 0 < rate nu m := mul_pos hnu (pow_pos (lam_pos m) 2)

theorem quadPoint_le (q : Quad) (N j : ℕ) : |quadPoint q N j| ≤ 1 := by
  cases q <;> exact abs_le.2 ⟨Real.neg_one_le_cos _, Real.cos_le_one _⟩

theorem exists_coeffs (n d : ℕ) (hd : 2 * (d + 1) ≤ n + 4) (l : ℝ) :
    ∃ y : Fin (n + 2) → ℂ, expandC phi y = (approx l d).map Complex.ofRealHom := by
  obtain ⟨x, hx⟩ := exists_phi (n + 2) (approx l d) (lt_of_lt_of_le (approx_degree l d) (by exact_mod_cast hd)) (approx_walls l d).1 (approx_walls l d).2
  exact ⟨_, by rw [expandC_ofReal, hx]⟩

section

variable (q : Quad) (n d K : ℕ) (nu H : ℝ) (b : ℕ → ℝ) (y : ℕ → Fin (n + 2) → ℂ)

/-- Coefficients of the sum of the approximate cosines with their decaying factors. -/
noncomputable def target (t : ℝ) : Fin (n + 2) → ℂ := ∑ m ∈ range K, ((b m * Real.exp (-rate nu m * t) : ℝ) : ℂ) • y m

/-- Bound for the residual of one cosine per unit of amplitude and time. -/
noncomputable def resid (m : ℕ) : ℝ := rate nu m ^ 3 * H ^ 2 * (1 + 2 * tail (lam m) d) + rate nu m * (3 * tail (lam m) d)

/-- The residual left to come. -/
noncomputable def left (t : ℝ) : ℝ :=
  Real.sqrt Real.pi * ∑ m ∈ range K, |b m| * (Real.exp (rate nu m * H) / rate nu m * resid d nu H m) * Real.exp (-rate nu m * t)

theorem resid_nonneg (hnu : 0 < nu) (m : ℕ) : 0 ≤ resid d nu H m := by
  have h1 := rate_pos hnu m
  have h2 := tail_nonneg (lam m) d
  unfold resid
  positivity

theorem target_eval (hy : ∀ m, expandC phi (y m) = (approx (lam m) d).map Complex.ofRealHom) (t x : ℝ) :
    (expandC phi (target n K nu b y t)).eval (x : ℂ) = ((∑ m ∈ range K, b m * Real.exp (-rate nu m * t) * (approx (lam m) d).eval x : ℝ) : ℂ) := by
  rw [target, map_sum, eval_finsetSum, Complex.ofReal_sum]
  refine sum_congr rfl fun m _ => ?_
  rw [map_smul, hy, eval_smul, eval_ofReal, smul_eq_mul]
  push_cast; ring

theorem target_second (hy : ∀ m, expandC phi (y m) = (approx (lam m) d).map Complex.ofRealHom) (t x : ℝ) :
    (derivative (derivative (expandC phi (target n K nu b y t)))).eval (x : ℂ) =
      ((∑ m ∈ range K, b m * Real.exp (-rate nu m * t) * (derivative (derivative (approx (lam m) d))).eval x : ℝ) : ℂ) := by
  rw [target, map_sum, Polynomial.derivative_sum, Polynomial.derivative_sum, eval_finsetSum, Complex.ofReal_sum]
  refine sum_congr rfl fun m _ => ?_
  rw [map_smul, hy, derivative_smul, derivative_smul, derivative_map, derivative_map, eval_smul, eval_ofReal, smul_eq_mul]
  push_cast; ring

theorem mode_resid (hnu : 0 < nu) {h t x : ℝ} (hh : 0 ≤ h) (hH : h ≤ H) (hx : |x| ≤ 1) (m : ℕ) :
    |(Real.exp (-rate nu m * (t + h)) - Real.exp (-rate nu m * t)) * (approx (lam m) d).eval x -
      nu * h / 2 * (Real.exp (-rate nu m * (t + h)) + Real.exp (-rate nu m * t)) * (derivative (derivative (approx (lam m) d))).eval x| ≤
    h * Real.exp (-rate nu m * t) * resid d nu H m := by
  have hmu := rate_pos hnu m
  have ht := tail_nonneg (lam m) d
  set mu := rate nu m with hm
  have hl : mu = nu * lam m ^ 2 := rfl
  set a := Real.exp (-mu * t) with ha
  have ha0 : 0 < a := Real.exp_pos _
  set s := mu * h with hs
  have hs0 : 0 ≤ s := mul_nonneg hmu.le hh
  have e : Real.exp (-mu * (t + h)) = a * Real.exp (-s) := by
    rw [ha, hs, ← Real.exp_add]; congr 1; ring
  set c := (approx (lam m) d).eval x with hc
  set c2 := (derivative (derivative (approx (lam m) d))).eval x with hc2
  have e2 : (Real.exp (-mu * (t + h)) - a) * c - nu * h / 2 * (Real.exp (-mu * (t + h)) + a) * c2 =
      a * ((Real.exp (-s) - 1 + s / 2 * (Real.exp (-s) + 1)) * c - nu * h / 2 * (Real.exp (-s) + 1) * (c2 + lam m ^ 2 * c)) := by
    rw [e, hs, hl]; ring
  rw [e2, abs_mul, abs_of_pos ha0, mul_comm h a, mul_assoc a h]
  refine mul_le_mul_of_nonneg_left ?_ ha0.le
  have h1 := cn_exp hs0
  have h2 : |c| ≤ 1 + 2 * tail (lam m) d := by
    have := approx_error (cos_lam m) d hx
    have h3 := Real.abs_cos_le_one (lam m * x)
    rw [abs_le] at this h3 ⊢
    constructor <;> linarith [this.1, this.2, h3.1, h3.2]
  have h3 := approx_second (cos_lam m) d hx
  have h4 : Real.exp (-s) ≤ 1 := Real.exp_le_one_iff.2 (by linarith)
  have h5 := Real.exp_pos (-s)
  have h6 : |(Real.exp (-s) - 1 + s / 2 * (Real.exp (-s) + 1)) * c| ≤ h * (mu ^ 3 * H ^ 2 * (1 + 2 * tail (lam m) d)) := by
    rw [abs_mul]
    refine (mul_le_mul h1 h2 (abs_nonneg _) (by positivity)).trans ?_
    have : s ^ 3 ≤ h * (mu ^ 3 * H ^ 2) := by
      have e : s ^ 3 = h * (mu ^ 3 * h ^ 2) := by rw [hs]; ring
      rw [e]
      gcongr
    calc s ^ 3 * (1 + 2 * tail (lam m) d) ≤ h * (mu ^ 3 * H ^ 2) * (1 + 2 * tail (lam m) d) := mul_le_mul_of_nonneg_right this (by linarith)
      _ = _ := by ring
  have h7 : |nu * h / 2 * (Real.exp (-s) + 1) * (c2 + lam m ^ 2 * c)| ≤ h * (mu * (3 * tail (lam m) d)) := by
    rw [abs_mul, abs_of_nonneg (show 0 ≤ nu * h / 2 * (Real.exp (-s) + 1) by positivity)]
    calc nu * h / 2 * (Real.exp (-s) + 1) * |c2 + lam m ^ 2 * c| ≤ nu * h * (lam m ^ 2 * (3 * tail (lam m) d)) :=
          mul_le_mul (by nlinarith [mul_nonneg hnu.le hh]) h3 (abs_nonneg _) (by positivity)
      _ = _ := by rw [hl]; ring
  refine (abs_sub _ _).trans ?_
  rw [resid, mul_add h, ← hm]
  exact add_le_add h6 h7

/-- The error and the residuals to come do not grow in a step. -/
theorem step_error (hnu : 0 < nu) (hy : ∀ m, expandC phi (y m) = (approx (lam m) d).map Complex.ofRealHom) {h t : ℝ} (hh : 0 ≤ h) (hH : h ≤ H)
    (v v' : Fin (n + 2) → ℂ) (hv : CrankNicolson (chebMats q n).BDD0 (chebMats q n).ADD0 nu h 0 v v') :
    ‖samp q (n + 4) (pol (expandC phi (v' - target n K nu b y (t + h))))‖ + left d K nu H b (t + h) ≤
      ‖samp q (n + 4) (pol (expandC phi (v - target n K nu b y t)))‖ + left d K nu H b t := by
  set Q := target n K nu b y t with hQ
  set Q' := target n K nu b y (t + h) with hQ'
  set R : ℂ[X] := -(expandC phi (Q' - Q) - ((nu * h / 2 : ℝ) : ℂ) • derivative (derivative (expandC phi (Q' + Q)))) with hR
  have e0 : (chebMats q n).BDD0 (Q' - Q) = scalarProduct q (n + 4) phi (expandC phi (Q' - Q)) := entry_test q (n + 4) (n + 2) 0 phi phi _
  have e2 : (chebMats q n).ADD0 (Q' + Q) = scalarProduct q (n + 4) phi (derivative (derivative (expandC phi (Q' + Q)))) :=
    entry_test q (n + 4) (n + 2) 2 phi phi _
  have hst := cn_stable q n hnu.le hh (v - Q) (v' - Q') R (by
    rw [hR, map_neg, map_sub (scalarProduct q (n + 4) phi), map_smul (scalarProduct q (n + 4) phi), ← e0, ← e2]
    rw [CrankNicolson, smul_zero, add_zero] at hv
    rw [show v' - Q' - (v - Q) = (v' - v) - (Q' - Q) by abel, show v' - Q' + (v - Q) = (v' + v) - (Q' + Q) by abel]
    simp only [map_sub, map_add, smul_sub, smul_add]
    have := sub_eq_zero.2 hv
    linear_combination (exp := 1) this)
  have hb : ‖samp q (n + 4) (pol R)‖ ≤ Real.sqrt Real.pi * ∑ m ∈ range K, |b m| * (h * Real.exp (-rate nu m * t) * resid d nu H m) := by
    refine samp_le q (n + 4) (by omega) (sum_nonneg fun m _ => mul_nonneg (abs_nonneg _) (mul_nonneg (mul_nonneg hh (Real.exp_pos _).le)
      (resid_nonneg d nu H hnu m))) (fun x hx => ?_) fun j => quadPoint_le q _ j
    have ev : pol R x = -((∑ m ∈ range K, b m * ((Real.exp (-rate nu m * (t + h)) - Real.exp (-rate nu m * t)) * (approx (lam m) d).eval x -
        nu * h / 2 * (Real.exp (-rate nu m * (t + h)) + Real.exp (-rate nu m * t)) * (derivative (derivative (approx (lam m) d))).eval x) : ℝ) : ℂ) := by
      rw [pol, hR, eval_neg, eval_sub, eval_smul, map_sub, map_add, derivative_add, derivative_add, eval_sub, eval_add, hQ, hQ',
        target_eval n d K nu b y hy, target_eval n d K nu b y hy, target_second n d K nu b y hy, target_second n d K nu b y hy, smul_eq_mul,
        ← Complex.ofReal_sub, ← Complex.ofReal_add, ← Complex.ofReal_mul, ← Complex.ofReal_sub, ← sum_sub_distrib, ← sum_add_distrib, mul_sum,
        ← sum_sub_distrib]
      congr 2
      exact sum_congr rfl fun m _ => by ring
    rw [ev, norm_neg, Complex.norm_real, Real.norm_eq_abs]
    refine (abs_sum_le_sum_abs _ _).trans (sum_le_sum fun m _ => ?_)
    rw [abs_mul]
    exact mul_le_mul_of_nonneg_left (mode_resid d nu H hnu hh hH hx m) (abs_nonneg _)
  have hl : Real.sqrt Real.pi * ∑ m ∈ range K, |b m| * (h * Real.exp (-rate nu m * t) * resid d nu H m) ≤
      left d K nu H b t - left d K nu H b (t + h) := by
    rw [left, left, ← mul_sub, ← sum_sub_distrib]
    refine mul_le_mul_of_nonneg_left (sum_le_sum fun m _ => ?_) (Real.sqrt_nonneg _)
    have := step_exp (t := t) (rate_pos hnu m) hh hH
    have h2 := mul_le_mul_of_nonneg_left (mul_le_mul_of_nonneg_right this (resid_nonneg d nu H hnu m)) (abs_nonneg (b m))
    refine h2.trans (le_of_eq (by ring))
  linarith

end

end SpectralDNS.Heat

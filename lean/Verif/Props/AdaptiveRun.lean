import Verif.Props.GlobalSolutions
import Verif.Props.Ranks
import Verif.Props.Solve
import Mathlib.Data.Fin.Tuple.Basic

/-!
# C95: adaptive runs of the periodic solvers end, unless the flow grows without bound

The estimate is the one computed by the code (`Model/ErrorEstimate.lean`), not an arbitrary function as in C25.
-/

namespace SpectralDNS

open Spec

/-! ## The estimate is bounded by the size of the error array -/

section Estimate
variable {ι : Type*} [Fintype ι] {R nc : ℕ}

/-- An estimate that is a number between zero and a multiple of the norm of the error. -/
def EstBound {V : Type*} [Norm V] (est : V → V → V → PyF) : Prop :=
  ∃ K : ℝ, 0 ≤ K ∧ ∀ e u v, ∃ x : ℝ, est e u v = .fin x ∧ 0 ≤ x ∧ x ≤ K * ‖e‖

theorem EstBound.nonneg {V : Type*} [Norm V] {est : V → V → V → PyF} (h : EstBound est) (a b c : V) : (est a b c).Nonneg := by
  obtain ⟨K, -, h⟩ := h
  obtain ⟨x, hx, h0, -⟩ := h a b c
  rw [hx]; exact h0

theorem maxNorm_le {TOL : ℝ} (hTOL : 0 < TOL) (d : ErrData ι nc) {M : ℝ} (hM : ∀ k i, ‖d.err k i‖ ≤ M) :
    Spec.maxNorm TOL TOL d ≤ Real.sqrt (Fintype.card ι) * (M / TOL) := by
  rcases isEmpty_or_nonempty ι with hι | ⟨⟨i0⟩⟩
  · simp [Spec.maxNorm, Spec.compNorm]
  have hM0 : 0 ≤ M := (norm_nonneg _).trans (hM 0 i0)
  refine Finset.sup'_le _ _ fun k _ => ?_
  have h : ∑ i, (‖d.err k i‖ / |TOL + max ‖d.u0 k i‖ ‖d.new k i‖ * TOL|) ^ 2 ≤ ∑ _i : ι, (M / TOL) ^ 2 := by
    refine Finset.sum_le_sum fun i _ => ?_
    refine pow_le_pow_left₀ (by positivity) (div_le_div₀ hM0 (hM k i) hTOL ?_) 2
    have : 0 ≤ max ‖d.u0 k i‖ ‖d.new k i‖ * TOL := mul_nonneg (le_max_of_le_left (norm_nonneg _)) hTOL.le
    rw [abs_of_pos (by linarith)]
    linarith
  rw [Spec.compNorm, show Real.sqrt (Fintype.card ι) * (M / TOL) = Real.sqrt (Fintype.card ι * (M / TOL) ^ 2) by
    rw [Real.sqrt_mul (Nat.cast_nonneg _), Real.sqrt_sq (div_nonneg hM0 hTOL.le)]]
  refine Real.sqrt_le_sqrt (h.trans (le_of_eq ?_))
  simp

/-- The estimate of the code as a function of the arrays `err`, `u0`, `u0_new`, seen by one rank; `φ` lists the components of the array that is
integrated. -/
noncomputable def codeEst {V : Type*} (φ : V → Fin (nc + 1) → ι → ℂ) (TOL : ℝ) (owner : ι → Fin (R + 1)) (r : Fin (R + 1)) (e u v : V) : PyF :=
  rankEst TOL TOL owner ⟨φ e, φ u, φ v⟩ r

theorem codeEst_bound {V : Type*} [SeminormedAddCommGroup V] (φ : V → Fin (nc + 1) → ι → ℂ) (hφ : ∀ v, ‖φ v‖ ≤ ‖v‖) {TOL : ℝ} (hTOL : 0 < TOL)
    (owner : ι → Fin (R + 1)) (r : Fin (R + 1)) : EstBound (codeEst φ TOL owner r) := by
  refine ⟨Real.sqrt (Fintype.card ι) / TOL / Real.sqrt (localSize owner 0), by positivity, fun e u v => ⟨_, C26_estimate TOL TOL owner _ r, ?_, ?_⟩⟩
  · exact div_nonneg (le_trans (Real.sqrt_nonneg _) (Finset.le_sup' (f := fun k => Spec.compNorm TOL TOL (φ e k) (φ u k) (φ v k))
      (Finset.mem_univ 0))) (Real.sqrt_nonneg _)
  · rw [div_mul_eq_mul_div]
    refine div_le_div_of_nonneg_right ((maxNorm_le hTOL _ (M := ‖e‖) fun k i => ?_).trans (le_of_eq ?_)) (Real.sqrt_nonneg _)
    · exact ((norm_le_pi_norm (φ e k) i).trans (norm_le_pi_norm (φ e) k)).trans (hφ e)
    · ring

end Estimate

/-! ## One call -/

section Call
variable {E : Type*} [NormedAddCommGroup E] [NormedSpace ℝ E]

/-- On a ball the difference of the two embedded solutions is at most a multiple of the step. -/
theorem rkErr_small {f : E → E} (hf : QuadField f) (s : ℕ) (a : ℕ → ℕ → ℝ) (b bhat : ℕ → ℝ) (R : ℝ) :
    ∃ C : ℝ, 0 ≤ C ∧ ∀ h : ℝ, 0 ≤ h → h ≤ 1 → ∀ u, ‖u‖ ≤ R → ‖Spec.rkErr s a b bhat f h u‖ ≤ h * C := by
  obtain ⟨M, L, hM, _, H⟩ := stages_bounds hf a R s
  refine ⟨∑ j ∈ Finset.range s, |b j - bhat j| * M, Finset.sum_nonneg fun j _ => by positivity, fun h h0 h1 u hu => ?_⟩
  have e : Spec.rkErr s a b bhat f h u = ∑ j ∈ Finset.range s, (h * (b j - bhat j)) • stages a f h u j := by
    simp only [Spec.rkErr, Spec.rkNew, add_sub_add_left_eq_sub, ← Finset.sum_sub_distrib, mul_sub, sub_smul]
  rw [e, Finset.mul_sum]
  refine (norm_sum_le _ _).trans (Finset.sum_le_sum fun j hj => ?_)
  rw [norm_smul, norm_mul, Real.norm_of_nonneg h0, Real.norm_eq_abs, mul_assoc]
  exact mul_le_mul_of_nonneg_left (mul_le_mul_of_nonneg_left ((H j (Finset.mem_range.1 hj) h h0 h1).1 u hu) (abs_nonneg _)) h0

/-- A small estimate gives a factor of at least one. -/
theorem factor_ge_one {facmax x : ℝ} (hf : 1 ≤ facmax) (hx0 : 0 ≤ x) (hx : x ≤ (4 / 5) ^ 5) : 1 ≤ Spec.factor facmax 4 (.fin x) := by
  simp only [Spec.factor]
  split
  · exact hf
  · rename_i h
    have hpos : 0 < x := lt_of_le_of_ne hx0 (Ne.symm h)
    refine le_min hf (le_max_of_le_right ?_)
    have h1 : x ^ (1 / ((4 : ℕ) + 1 : ℝ)) ≤ 4 / 5 := by
      calc x ^ (1 / ((4 : ℕ) + 1 : ℝ)) ≤ ((4 / 5 : ℝ) ^ 5) ^ (1 / ((4 : ℕ) + 1 : ℝ)) := Real.rpow_le_rpow hx0 hx (by positivity)
        _ = 4 / 5 := by
          rw [← Real.rpow_natCast, ← Real.rpow_mul (by norm_num)]
          norm_num
    rw [Real.rpow_neg hx0, ← div_eq_mul_inv, le_div_iff₀ (Real.rpow_pos_of_pos hpos _), one_mul]
    exact h1

/-- An accepted estimate gives a factor of at least four fifths. -/
theorem factor_accept {facmax x : ℝ} (hf : 1 ≤ facmax) (hx0 : 0 ≤ x) (hx : x ≤ 1) : 4 / 5 ≤ Spec.factor facmax 4 (.fin x) := by
  simp only [Spec.factor]
  split
  · linarith
  · rename_i h
    have hpos : 0 < x := lt_of_le_of_ne hx0 (Ne.symm h)
    refine le_min (by linarith) (le_max_of_le_right ?_)
    have : 1 ≤ x ^ (-(1 / ((4 : ℕ) + 1 : ℝ))) := Real.one_le_rpow_of_pos_of_le_one_of_nonpos hpos hx (by norm_num)
    linarith

/-- The textbook step from a state from which all steps up to `δ` have small estimates. -/
theorem adapt_exists {f : E → E} {T : Tableau} {est : E → E → E → PyF} {u : E} {δ : ℝ} (hδ : 0 < δ)
    (hest : ∀ a b c, ∃ x, est a b c = .fin x ∧ 0 ≤ x)
    (hs : ∀ h, 0 < h → h ≤ δ → ∃ x, est (Spec.rkErr T.s T.A T.b T.bhat f h u) u (Spec.rkNew T.s T.A T.b f h u) = .fin x ∧ x ≤ (4 / 5) ^ 5)
    (n : ℕ) : ∀ facmax dt, 1 ≤ facmax → 0 < dt → dt * (4 / 5) ^ n ≤ δ →
      ∃ rej u' d took e, Spec.Adapt T.s T.A T.b T.bhat f 4 est facmax dt u rej (u', d, took, e) ∧ rej.length ≤ n ∧
        0 < took ∧ took ≤ dt ∧ min dt (δ / 100) ≤ took ∧ min dt (δ / 100) ≤ d := by
  have acc : ∀ facmax dt, 1 ≤ facmax → 0 < dt → ∀ x, est (Spec.rkErr T.s T.A T.b T.bhat f dt u) u (Spec.rkNew T.s T.A T.b f dt u) = .fin x → 0 ≤ x →
      x ≤ 1 → ∃ rej u' d took e, Spec.Adapt T.s T.A T.b T.bhat f 4 est facmax dt u rej (u', d, took, e) ∧ rej.length = 0 ∧
        0 < took ∧ took ≤ dt ∧ min dt (δ / 100) ≤ took ∧ min dt (δ / 100) ≤ d := by
    intro facmax dt hf hdt x hx hx0 hx1
    refine ⟨[], _, _, _, _, .accept facmax dt u (.fin x) hx.symm (fun y hy => by injection hy with hy; rwa [← hy]) (by simp), rfl, hdt, le_rfl,
      min_le_left _ _, ?_⟩
    by_cases hd : dt ≤ δ
    · obtain ⟨y, hy, hy5⟩ := hs dt hdt hd
      rw [hx] at hy
      injection hy with hy
      rw [← hy] at hy5
      have := factor_ge_one hf hx0 hy5
      exact (min_le_left _ _).trans (by nlinarith)
    · have := factor_accept hf hx0 hx1
      refine (min_le_right _ _).trans ?_
      push Not at hd
      nlinarith
  induction n with
  | zero =>
    intro facmax dt hf hdt hn
    have hd : dt ≤ δ := by simpa using hn
    obtain ⟨x, hx, hx5⟩ := hs dt hdt hd
    obtain ⟨x', hx', hx0⟩ := hest (Spec.rkErr T.s T.A T.b T.bhat f dt u) u (Spec.rkNew T.s T.A T.b f dt u)
    rw [hx] at hx'
    injection hx' with hx'
    subst hx'
    obtain ⟨rej, u', d, took, e, h1, h2, h3⟩ := acc facmax dt hf hdt x hx hx0 (hx5.trans (by norm_num))
    exact ⟨rej, u', d, took, e, h1, h2.le, h3⟩
  | succ n ih =>
    intro facmax dt hf hdt hn
    obtain ⟨x, hx, hx0⟩ := hest (Spec.rkErr T.s T.A T.b T.bhat f dt u) u (Spec.rkNew T.s T.A T.b f dt u)
    by_cases hx1 : x ≤ 1
    · obtain ⟨rej, u', d, took, e, h1, h2, h3⟩ := acc facmax dt hf hdt x hx hx0 hx1
      exact ⟨rej, u', d, took, e, h1, by omega, h3⟩
    · push Not at hx1
      have hd : δ < dt := by
        by_contra hd
        push Not at hd
        obtain ⟨y, hy, hy5⟩ := hs dt hdt hd
        rw [hx] at hy
        injection hy with hy
        have : ((4 : ℝ) / 5) ^ 5 ≤ 1 := by norm_num
        linarith
      have hge := Spec.le_factor facmax (by linarith) 4 (.fin x)
      have hle := Spec.factor_reject facmax 4 (.fin x) (Or.inr ⟨x, rfl, hx1⟩)
      obtain ⟨rej, u', d, took, e, h1, h2, h3, h4, h5, h6⟩ := ih 1 (dt * Spec.factor facmax 4 (.fin x)) le_rfl (by positivity) (by
        refine le_trans ?_ hn
        rw [pow_succ']
        have : dt * Spec.factor facmax 4 (.fin x) ≤ dt * (4 / 5) := mul_le_mul_of_nonneg_left hle hdt.le
        calc _ ≤ dt * (4 / 5) * (4 / 5) ^ n := mul_le_mul_of_nonneg_right this (by positivity)
          _ = _ := by ring)
      have hmin : min dt (δ / 100) ≤ min (dt * Spec.factor facmax 4 (.fin x)) (δ / 100) := by
        refine le_min ((min_le_right _ _).trans ?_) (min_le_right _ _)
        nlinarith
      refine ⟨dt :: rej, u', d, took, e, .reject facmax dt u (.fin x) rej _ hx.symm (Or.inr ⟨x, rfl, hx1⟩) h1, by simpa using h2, h3, ?_,
        hmin.trans h5, hmin.trans h6⟩
      nlinarith

/-- C95.  One call: on every ball there is a size `δ` such that, from every state in the ball and with every requested size up to `H`, the retry loop
ends within a fixed number of trials, having taken at least `min dt δ` and proposing at least `min dt δ` for the next step. -/
theorem C95_call (F : E → E → E) (f : E → E) (hF : ∀ r u, F r u = f u) (hf : QuadField f) {est : E → E → E → PyF} (hest : EstBound est) (R : ℝ) :
    ∃ δ : ℝ, 0 < δ ∧ ∀ H : ℝ, ∃ n : ℕ, ∀ fuel, n ≤ fuel → ∀ (dt : ℝ) (tstep : ℕ) (st : RKArrays E), 0 < dt → dt ≤ H → ‖st.u0‖ ≤ R →
      FirstStageValid f bs5 tstep st →
      ∃ res, adaptiveRK F bs5 4 true true est fuel dt tstep st = some res ∧ res.rejected.length < n ∧ 0 < res.took ∧ res.took ≤ dt ∧
        min dt δ ≤ res.took ∧ min dt δ ≤ res.dt ∧ res.arrays.fY (slot bs5.s 0 (res.arrays.offset - 1)) = f res.arrays.u0 := by
  obtain ⟨C, hC, hC'⟩ := rkErr_small hf bs5.s bs5.A bs5.b bs5.bhat R
  obtain ⟨K, hK, hb⟩ := id hest
  set δ : ℝ := min 1 ((4 / 5) ^ 5 / (K * C + 1)) with hδdef
  have hKC : 0 ≤ K * C := mul_nonneg hK hC
  have hδ : 0 < δ := lt_min one_pos (by positivity)
  refine ⟨δ / 100, by positivity, fun H => ?_⟩
  obtain ⟨n, hn⟩ : ∃ n : ℕ, |H| * (4 / 5 : ℝ) ^ n ≤ δ := by
    obtain ⟨n, hn⟩ := exists_pow_lt_of_lt_one (show 0 < δ / (|H| + 1) by positivity) (show (4 / 5 : ℝ) < 1 by norm_num)
    refine ⟨n, ?_⟩
    rw [lt_div_iff₀ (by positivity)] at hn
    have : 0 < (4 / 5 : ℝ) ^ n := by positivity
    nlinarith
  refine ⟨n + 1, fun fuel hfuel dt tstep st hdt hH hR hv => ?_⟩
  have hs : ∀ h, 0 < h → h ≤ δ → ∃ x, est (Spec.rkErr bs5.s bs5.A bs5.b bs5.bhat f h st.u0) st.u0 (Spec.rkNew bs5.s bs5.A bs5.b f h st.u0) = .fin x ∧
      x ≤ (4 / 5) ^ 5 := by
    intro h h0 h1
    obtain ⟨x, hx, -, hxK⟩ := hb (Spec.rkErr bs5.s bs5.A bs5.b bs5.bhat f h st.u0) st.u0 (Spec.rkNew bs5.s bs5.A bs5.b f h st.u0)
    refine ⟨x, hx, hxK.trans ?_⟩
    have e1 := hC' h h0.le (h1.trans (min_le_left _ _)) st.u0 hR
    have e2 : h * (K * C + 1) ≤ (4 / 5) ^ 5 := by
      have := h1.trans (min_le_right _ _)
      rwa [le_div_iff₀ (by positivity)] at this
    calc K * _ ≤ K * (h * C) := mul_le_mul_of_nonneg_left e1 hK
      _ ≤ h * (K * C + 1) := by nlinarith
      _ ≤ _ := e2
  obtain ⟨rej, u', d, took, e, h1, h2, h3, h4, h5, h6⟩ := adapt_exists (T := bs5) hδ (fun a b c => by
    obtain ⟨x, hx, h0, -⟩ := hb a b c
    exact ⟨x, hx, h0⟩) hs n facmaxDefault dt (by norm_num [facmaxDefault]) hdt
    ((mul_le_mul_of_nonneg_right (hH.trans (le_abs_self H)) (by positivity)).trans hn)
  obtain ⟨res, k1, k2, k3⟩ := adaptiveLoop_complete F f hF bs5 bs5_fsal 4 est hest.nonneg tstep h1 st [] fuel (by norm_num [facmaxDefault]) rfl hv
    (by omega)
  obtain ⟨-, -, -, k4⟩ := adaptiveLoop_refines F f hF bs5 bs5_fsal 4 est hest.nonneg tstep fuel facmaxDefault dt st [] res (by norm_num [facmaxDefault])
    hv k1
  simp only [Prod.mk.injEq] at k2
  obtain ⟨-, k5, k6, -⟩ := k2
  refine ⟨res, k1, by rw [k3]; simp; omega, ?_, ?_, ?_, ?_, k4⟩
  · rwa [k6]
  · rwa [k6]
  · rwa [k6]
  · rwa [k5]

end Call

/-! ## Whole runs -/

namespace Solve

section Run
variable {E D : Type*} [NormedAddCommGroup E] [NormedSpace ℝ E]

/-- A periodic solver with `BS5_adaptive` whose callbacks only look at the flow, without a kill file. -/
structure AdaptiveSolver (sv : Solver E (Closure E) D) (F : E → E → E) (est : E → E → E → PyF) (inner : ℕ) : Prop where
  create : ∀ s, ∃ rhs, sv.getintegrator s = getintegrator rhs s
  integ : sv.integrate = methodIntegrate F est inner (.BS5 true)
  update : ∀ p s, sv.update p s = s
  comps : ∀ s, sv.update_components s = s
  endp : ∀ p s, sv.end_of_tstep p s = endPeriodic p s
  alive : ∀ n, sv.killed n = false

theorem loop_adaptive {F : E → E → E} {f : E → E} {est : E → E → E → PyF} {inner : ℕ} {sv : Solver E (Closure E) D}
    (hsv : AdaptiveSolver sv F est inner) {R δ η H : ℝ} (hη : 0 < η) (hηδ : η ≤ δ)
    (hcall : ∀ (dt : ℝ) (tstep : ℕ) (st : RKArrays E), 0 < dt → dt ≤ H → ‖st.u0‖ ≤ R → FirstStageValid f bs5 tstep st →
      ∃ res, adaptiveRK F bs5 4 true true est inner dt tstep st = some res ∧ 0 < res.took ∧ res.took ≤ dt ∧
        min dt δ ≤ res.took ∧ min dt δ ≤ res.dt ∧ res.arrays.fY (slot bs5.s 0 (res.arrays.offset - 1)) = f res.arrays.u0)
    (m : ℕ) : ∀ (st : St E (Closure E) D) (fuel : ℕ), m < fuel → 0 < st.p.dt → (η ≤ st.p.dt ∨ st.p.t + st.p.dt = st.p.T) →
      st.p.t + st.p.dt < st.p.T + 1e-12 → st.p.T + 1e-12 - st.p.t ≤ H → st.p.T - st.p.t ≤ m * η →
      FirstStageValid f bs5 st.p.tstep ⟨st.s, st.c.fY, st.c.rhs, st.c.offset⟩ →
      (∀ st', Reach sv st st' → ‖st'.s‖ ≤ R) →
      ∃ st', loop sv fuel st = .finished st' ∧ st'.took.length ≤ st.took.length + (m + 1) ∧ (∀ d ∈ st'.took.drop st.took.length, 0 < d) ∧
        |st'.p.t - st.p.T| < 1e-12 := by
  induction m with
  | zero =>
    intro st fuel hf hdt _ hg hH hm hv hB
    obtain ⟨k, rfl⟩ : ∃ k, fuel = k + 1 := ⟨fuel - 1, by omega⟩
    obtain ⟨res, h1, h2, h3, h4, h5, h6⟩ := hcall st.p.dt st.p.tstep ⟨st.s, st.c.fY, st.c.rhs, st.c.offset⟩ hdt (by linarith) (hB st .refl) hv
    have hi : sv.integrate st.p st.s st.c = some (res.arrays.u0, ⟨res.arrays.u0, st.c.u1, st.c.u2, res.arrays.rhs, res.arrays.fY, res.arrays.offset⟩,
        res.dt, res.took) := by
      rw [hsv.integ]
      simp only [methodIntegrate, integrate, h1, Option.map_some]
    have ha := afterIntegrate_alive sv st (res.arrays.u0, (⟨res.arrays.u0, st.c.u1, st.c.u2, res.arrays.rhs, res.arrays.fY,
      res.arrays.offset⟩ : Closure E), res.dt, res.took) (hsv.alive _)
    have hT : |st.p.t + res.took - st.p.T| < 1e-12 := by
      simp only [Nat.cast_zero, zero_mul] at hm
      rw [abs_lt]
      constructor <;> linarith
    simp only [hsv.endp, endPeriodic, outP, if_pos hT, Bool.not_true] at ha
    refine ⟨_, loop_stop hg.le hi ha k, by simp, by simp [h2], hT⟩
  | succ m ih =>
    intro st fuel hf hdt hor hg hH hm hv hB
    obtain ⟨k, rfl⟩ : ∃ k, fuel = k + 1 := ⟨fuel - 1, by omega⟩
    obtain ⟨res, h1, h2, h3, h4, h5, h6⟩ := hcall st.p.dt st.p.tstep ⟨st.s, st.c.fY, st.c.rhs, st.c.offset⟩ hdt (by linarith) (hB st .refl) hv
    have hi : sv.integrate st.p st.s st.c = some (res.arrays.u0, ⟨res.arrays.u0, st.c.u1, st.c.u2, res.arrays.rhs, res.arrays.fY, res.arrays.offset⟩,
        res.dt, res.took) := by
      rw [hsv.integ]
      simp only [methodIntegrate, integrate, h1, Option.map_some]
    have ha := afterIntegrate_alive sv st (res.arrays.u0, (⟨res.arrays.u0, st.c.u1, st.c.u2, res.arrays.rhs, res.arrays.fY,
      res.arrays.offset⟩ : Closure E), res.dt, res.took) (hsv.alive _)
    by_cases hT : |st.p.t + res.took - st.p.T| < 1e-12
    · simp only [hsv.endp, endPeriodic, outP, if_pos hT, Bool.not_true] at ha
      exact ⟨_, loop_stop hg.le hi ha k, by simp, by simp [h2], hT⟩
    · have hlow : st.p.t + res.took ≤ st.p.T - 1e-12 := by
        by_contra hc
        push Not at hc
        exact hT (by rw [abs_lt]; constructor <;> linarith)
      have hdη : η ≤ st.p.dt := by
        rcases hor with h | h
        · exact h
        · by_contra hc
          push Not at hc
          rw [min_eq_left (by linarith)] at h4
          have : (0 : ℝ) < 1e-12 := by norm_num
          linarith
      have hmin : η ≤ min st.p.dt δ := le_min hdη hηδ
      have hs : ∀ q, (h5update sv q res.arrays.u0 st.h5).1 = res.arrays.u0 := fun q => by
        simp [h5update, resultState, hsv.comps]
      have hT0 : ¬ |(outP st (res.arrays.u0, (⟨res.arrays.u0, st.c.u1, st.c.u2, res.arrays.rhs, res.arrays.fY,
          res.arrays.offset⟩ : Closure E), res.dt, res.took)).t - st.p.T| < 1e-12 := hT
      set q := outP st (res.arrays.u0, (⟨res.arrays.u0, st.c.u1, st.c.u2, res.arrays.rhs, res.arrays.fY, res.arrays.offset⟩ : Closure E), res.dt,
        res.took) with hq
      have q1 : q.t = st.p.t + res.took := rfl
      have q2 : q.T = st.p.T := rfl
      have q3 : q.dt = res.dt := rfl
      simp only [hsv.update, hs, hsv.endp, endPeriodic, q2, if_neg hT0] at ha
      have e9 : (0 : ℝ) < 1e-12 := by norm_num
      obtain ⟨d, hd0, hdor, hdg, ha⟩ : ∃ d, 0 < d ∧ (η ≤ d ∨ q.t + d = q.T) ∧ q.t + d < q.T + 1e-12 ∧ afterIntegrate sv st (res.arrays.u0,
          (⟨res.arrays.u0, st.c.u1, st.c.u2, res.arrays.rhs, res.arrays.fY, res.arrays.offset⟩ : Closure E), res.dt, res.took) =
          (⟨{ q with dt := d }, res.arrays.u0, ⟨res.arrays.u0, st.c.u1, st.c.u2, res.arrays.rhs, res.arrays.fY, res.arrays.offset⟩,
            (h5update sv q res.arrays.u0 st.h5).2.1, st.took ++ [res.took], st.outs ++ [(q, res.arrays.u0)]⟩, some true) := by
        by_cases hc : |q.t + q.dt - st.p.T| < 1e-12 ∨ q.t + q.dt ≥ st.p.T + 1e-12
        · simp only [if_pos hc, Bool.not_false] at ha
          refine ⟨st.p.T - q.t, by rw [q1]; linarith, Or.inr (by rw [q2]; ring), by rw [q2]; linarith, ha⟩
        · simp only [if_neg hc, Bool.not_false] at ha
          push Not at hc
          refine ⟨q.dt, by rw [q3]; linarith [hmin.trans h5], Or.inl (by rw [q3]; exact hmin.trans h5), by rw [q2]; exact hc.2, ha⟩
      obtain ⟨st', k1, k2, k3, k4⟩ := ih _ k (by omega) hd0 hdor hdg (show q.T + 1e-12 - q.t ≤ H by rw [q1, q2]; linarith)
        (show q.T - q.t ≤ m * η by
          rw [q1, q2]
          push_cast at hm
          have := hmin.trans h4
          linarith)
        (Or.inr h6) (fun st' h => hB st' (Reach.trans (.step .refl hg.le hi ha) h))
      refine ⟨st', (loop_step hg.le hi ha k).trans k1, ?_, ?_, k4⟩
      · simp only [List.length_append, List.length_singleton] at k2
        omega
      · intro x hx
        obtain ⟨l, hl⟩ : ∃ l, st'.took = st.took ++ [res.took] ++ l := by
          have := (loop_finished_seen k1).inv (fun y => ∃ l, y.took = st.took ++ [res.took] ++ l) ⟨[], by simp⟩ fun y r ⟨l, hy⟩ _ _ => by
            rw [(afterIntegrate_basic sv y r).2.2.2.2.2.2.1, hy]
            exact ⟨l ++ [r.2.2.2], by simp⟩
          exact this
        rw [hl] at hx k3
        rw [List.append_assoc, List.drop_left] at hx
        rw [List.drop_left] at k3
        simp only [List.singleton_append, List.mem_cons] at hx
        rcases hx with rfl | hx
        · exact h2
        · exact k3 x hx

/-- C95.  A whole run with `BS5_adaptive`, from `tstep = 0`, of an equation with a right-hand side of degree two: for every bound `R` there are a number
of steps `n` and a number of trials `k`, depending only on `R` and the parameters, such that as long as the states of the run stay below `R` no call needs
more than `k` trials and `solve` comes to its end after at most `n` steps, all forward, at time `T`.  So a run that does not end has unbounded states.
(`t + dt = T + 1e-12` exactly is left out: the loop would then step back by `1e-12`.) -/
theorem C95_run (F : E → E → E) (f : E → E) (hF : ∀ r u, F r u = f u) (hf : QuadField f) {est : E → E → E → PyF} (hest : EstBound est) (R : ℝ)
    (p : Params) (hdt : 0 < p.dt) (h0 : p.tstep = 0) (hne : p.t + p.dt ≠ p.T + 1e-12) :
    ∃ n k : ℕ, ∀ inner, k ≤ inner → ∀ sv : Solver E (Closure E) D, AdaptiveSolver sv F est inner → ∀ (s : E) (h5 : H5 D),
      (∀ st, Reach sv (start sv p s h5) st → ‖st.s‖ ≤ R) → ∀ fuel, n < fuel →
      ∃ st, (solve sv fuel p s h5).reachesClose st ∧ st.took.length ≤ n + 1 ∧ (∀ d ∈ st.took, 0 < d) ∧
        (p.t + p.dt ≤ p.T + 1e-12 → |st.p.t - p.T| < 1e-12 ∧ solve sv fuel p s h5 = .returned st) := by
  obtain ⟨δ, hδ, hcall⟩ := C95_call F f hF hf hest R
  obtain ⟨k, hk⟩ := hcall (p.T + 1e-12 - p.t)
  have hη : 0 < min p.dt δ := lt_min hdt hδ
  obtain ⟨n, hn⟩ := exists_nat_ge ((p.T - p.t) / min p.dt δ)
  rw [div_le_iff₀ hη] at hn
  refine ⟨n, k, fun inner hinner sv hsv s h5 hB fuel hfuel => ?_⟩
  by_cases hg : p.t + p.dt ≤ p.T + 1e-12
  · obtain ⟨rhs, hrhs⟩ := hsv.create s
    obtain ⟨st, k1, k2, k3, k4⟩ := loop_adaptive (f := f) (R := R) (δ := δ) (H := p.T + 1e-12 - p.t) hsv hη (min_le_right _ _)
      (fun dt tstep st a1 a2 a3 a4 => by
        obtain ⟨res, b1, -, b2⟩ := hk inner hinner dt tstep st a1 a2 a3 a4
        exact ⟨res, b1, b2⟩) n (start sv p s h5) fuel hfuel hdt (Or.inl (min_le_left _ _)) (lt_of_le_of_ne hg hne) le_rfl hn
      (Or.inl h0) hB
    obtain ⟨st', l1, l2, l3, -, -, -, l4⟩ := solve_of_finished k1
    have hdrop : st.took.drop 0 = st.took := rfl
    have hT : |st'.p.t - p.T| < 1e-12 := by rw [l2]; exact k4
    have hne' : st'.took ≠ [] := by
      rcases loop_finished k1 with ⟨h1, h2⟩ | ⟨s1, r, h1, h2, h3, h4⟩
      · intro hc
        rw [l3] at hc
        have := h1.inv (fun x => x.took = [] → x = start sv p s h5) (fun _ => rfl) fun x r x' _ _ _ hx hx' => by
          have := (afterIntegrate_basic sv x r).2.2.2.2.2.2.1
          rw [hx] at this
          rw [this] at hx'
          simp at hx'
        rw [this hc] at h2
        exact h2 hg
      · intro hc
        have := (afterIntegrate_basic sv s1 r).2.2.2.2.2.2.1
        rw [h4] at this
        rw [l3, this] at hc
        simp at hc
    refine ⟨st', l1, by rw [l3]; simpa using k2, by rw [l3]; simpa using k3, fun _ => ⟨hT, ?_⟩⟩
    exact (C28_ends_at_T sv hsv.endp p s h5 fuel st' l1 hne').2.2
  · obtain ⟨j, rfl⟩ : ∃ j, fuel = j + 1 := ⟨fuel - 1, by omega⟩
    obtain ⟨st', l1, l2, l3, -⟩ := solve_of_finished (loop_guard (sv := sv) (st := start sv p s h5) hg j)
    exact ⟨st', l1, by rw [l3]; simp, by rw [l3]; simp, fun h => absurd h hg⟩

/-- What C95 says of a right-hand side and an estimate. -/
def EndsUnlessUnbounded (F : E → E → E) (est : E → E → E → PyF) : Prop :=
  ∀ (D : Type) (R : ℝ) (p : Params), 0 < p.dt → p.tstep = 0 → p.t + p.dt ≠ p.T + 1e-12 →
    ∃ n k : ℕ, ∀ inner, k ≤ inner → ∀ sv : Solver E (Closure E) D, AdaptiveSolver sv F est inner → ∀ (s : E) (h5 : H5 D),
      (∀ st, Reach sv (start sv p s h5) st → ‖st.s‖ ≤ R) → ∀ fuel, n < fuel →
      ∃ st, (solve sv fuel p s h5).reachesClose st ∧ st.took.length ≤ n + 1 ∧ (∀ d ∈ st.took, 0 < d) ∧
        (p.t + p.dt ≤ p.T + 1e-12 → |st.p.t - p.T| < 1e-12 ∧ solve sv fuel p s h5 = .returned st)

theorem ends_of_quad [FiniteDimensional ℝ E] (F : E → E → E) (f : E → E) (hF : ∀ r u, F r u = f u) (hf : IsQuad f) {est : E → E → E → PyF}
    (hest : EstBound est) : EndsUnlessUnbounded F est :=
  fun _ R p h1 h2 h3 => C95_run F f hF hf.field hest R p h1 h2 h3

end Run

section Periodic
open Periodic
variable {ι X : Type*} [Fintype ι] {Rk : ℕ}

/-- The components of `UB_hat` (solvers/MHD.py:55-68): velocity, then magnetic field. -/
def mhdComponents (ub : SArr 3 ι × SArr 3 ι) : Fin (5 + 1) → ι → ℂ := Fin.append (m := 3) (n := 3) ub.1 ub.2

/-- The components of `Ur_hat` (solvers/Bq2D.py:52-63): velocity, then density. -/
def bqComponents (ur : SArr 2 ι × (ι → ℂ)) : Fin (2 + 1) → ι → ℂ := Fin.snoc (n := 2) (α := fun _ => ι → ℂ) ur.1 ur.2

theorem mhdComponents_norm (ub : SArr 3 ι × SArr 3 ι) : ‖mhdComponents ub‖ ≤ ‖ub‖ := by
  rw [pi_norm_le_iff_of_nonneg (norm_nonneg _)]
  intro i
  refine Fin.addCases (m := 3) (n := 3) (fun j => ?_) (fun j => ?_) i
  · rw [mhdComponents, Fin.append_left]
    exact (norm_le_pi_norm ub.1 j).trans (norm_fst_le ub)
  · rw [mhdComponents, Fin.append_right]
    exact (norm_le_pi_norm ub.2 j).trans (norm_snd_le ub)

theorem bqComponents_norm (ur : SArr 2 ι × (ι → ℂ)) : ‖bqComponents ur‖ ≤ ‖ur‖ := by
  rw [pi_norm_le_iff_of_nonneg (norm_nonneg _)]
  intro i
  refine Fin.lastCases ?_ (fun j => ?_) i
  · rw [bqComponents, Fin.snoc_last]
    exact norm_snd_le ur
  · rw [bqComponents, Fin.snoc_castSucc]
    exact (norm_le_pi_norm ur.1 j).trans (norm_fst_le ur)

/-- C95.  Every periodic solver with the error estimate of the code, on any number of ranks, with any positive tolerance, any linear transforms,
sources, masks and forms of convection. -/
theorem C95_periodic (TOL : ℝ) (hTOL : 0 < TOL) (owner : ι → Fin (Rk + 1)) (_ : 0 < localSize owner 0) (rank : Fin (Rk + 1)) :
    (∀ (c : Ctx 3 ι X) (_ : LinearSpace c.Tp) (s : Scratch 3 ι X) (name : String) (conv) (_ : getConvection name = some conv),
      EndsUnlessUnbounded (rhsNS c fun r u => conv s r u c.Tp c.K) (codeEst (nc := 2) id TOL owner rank)) ∧
    (∀ (c : Ctx 2 ι X) (_ : LinearSpace c.Tp) (w0 : ι → ℂ),
      EndsUnlessUnbounded (rhsNS c fun r u => conv2DVortex w0 r u c.Tp c.K) (codeEst (nc := 1) id TOL owner rank)) ∧
    (∀ (c : Ctx 3 ι X) (_ : LinearSpace c.Tp) (s : Scratch 3 ι X), EndsUnlessUnbounded (rhsVV c s) (codeEst (nc := 2) id TOL owner rank)) ∧
    (∀ (c : Ctx 3 ι X) (_ : LinearSpace c.Tp) (eta : ℝ),
      EndsUnlessUnbounded (rhsMHD c eta fun _ ub => convMHD ub c.Tp c.K) (codeEst mhdComponents TOL owner rank)) ∧
    ∀ (c : Ctx 2 ι X) (_ : LinearSpace c.Tp) (Ri Pr : ℝ) (w0 : SArr 2 ι),
      EndsUnlessUnbounded (rhsBq c Ri Pr fun r ur => convBq w0 r ur c.Tp c.K) (codeEst bqComponents TOL owner rank) := by
  refine ⟨fun c H s name conv hname => ?_, fun c H w0 => ?_, fun c H s => ?_, fun c H eta => ?_, fun c H Ri Pr w0 => ?_⟩
  · refine ends_of_quad _ (rhsNS c (fun r u => conv s r u c.Tp c.K) 0) (fun r u => ?_) (rhsNS_quad c _ 0 fun i k => conv_quad H c.K name conv hname s 0 i k)
      (codeEst_bound id (fun _ => le_rfl) hTOL owner rank)
    simp only [rhsNS, ComputeRHS, conv_indep name conv hname s c.K r 0 u]
  · refine ends_of_quad _ (rhsNS c (fun r u => conv2DVortex w0 r u c.Tp c.K) 0) (fun r u => ?_) (rhsNS_quad c _ 0 fun i k => conv2D_quad H c.K w0 0 i k)
      (codeEst_bound id (fun _ => le_rfl) hTOL owner rank)
    have : conv2DVortex w0 r u c.Tp c.K = conv2DVortex w0 0 u c.Tp c.K := by
      funext i
      match i with
      | 0 => rw [(conv2D_eq w0 r u c.Tp c.K).1, (conv2D_eq w0 0 u c.Tp c.K).1]
      | 1 => rw [(conv2D_eq w0 r u c.Tp c.K).2, (conv2D_eq w0 0 u c.Tp c.K).2]
    simp only [rhsNS, ComputeRHS, this]
  · refine ends_of_quad _ (rhsVV c s 0) (fun r u => ?_) (rhsVV_quad c H s 0) (codeEst_bound id (fun _ => le_rfl) hTOL owner rank)
    simp only [rhsVV, convVV, cross2_3d_eq]
  · exact ends_of_quad _ (rhsMHD c eta (fun _ ub => convMHD ub c.Tp c.K) 0) (fun r u => rfl) (rhsMHD_quad c H eta 0)
      (codeEst_bound _ mhdComponents_norm hTOL owner rank)
  · refine ends_of_quad _ (rhsBq c Ri Pr (fun r ur => convBq w0 r ur c.Tp c.K) 0) (fun r u => ?_) (rhsBq_quad c H Ri Pr w0 0)
      (codeEst_bound _ bqComponents_norm hTOL owner rank)
    simp only [rhsBq, convBq_eq]

end Periodic

section Example

/-- A solver for `u' = 1` with the error itself as estimate. -/
noncomputable def clock (inner : ℕ) : Solver ℝ (Closure ℝ) Unit where
  getintegrator s := SpectralDNS.getintegrator 0 s
  integrate := methodIntegrate (fun _ _ => 1) (fun e _ _ => .fin |e|) inner (.BS5 true)
  update _ s := s
  update_components s := s
  results _ := ()
  levels := []
  end_of_tstep p s := endPeriodic p s
  regression_test _ s := s
  killed _ := false

theorem bs5_sum : ∑ j ∈ Finset.range bs5.s, bs5.b j = 1 := by
  show ∑ j ∈ Finset.range 8, ((bs5b.getD j 0 : ℚ) : ℝ) = 1
  simp only [Finset.sum_range_succ, Finset.sum_range_zero, bs5b]
  norm_num

/-- The states of the clock stay within the length of the run. -/
theorem clock_bounded (inner : ℕ) (p : Params) (hdt : 0 < p.dt) (h0 : p.tstep = 0) (hne : p.t + p.dt ≠ p.T + 1e-12) (s : ℝ) (h5 : H5 Unit)
    (st : St ℝ (Closure ℝ) Unit) (h : Reach (clock inner) (start (clock inner) p s h5) st) : |st.s| ≤ |s| + |p.T + 1e-12 - p.t| := by
  have hest : EstBound fun e _ _ : ℝ => PyF.fin |e| := ⟨1, zero_le_one, fun e _ _ => ⟨_, rfl, abs_nonneg _, by simp⟩⟩
  have key := h.inv (fun st => st.s = s + (st.p.t - p.t) ∧ p.t ≤ st.p.t ∧ (st.p.t = p.t ∨ st.p.t ≤ p.T + 1e-12) ∧ 0 < st.p.dt ∧
      FirstStageValid (fun _ : ℝ => (1 : ℝ)) bs5 st.p.tstep ⟨st.s, st.c.fY, st.c.rhs, st.c.offset⟩ ∧ st.p.T = p.T ∧ st.p.t + st.p.dt ≠ st.p.T + 1e-12)
    ⟨by simp, le_rfl, Or.inl rfl, hdt, Or.inl h0, rfl, hne⟩ fun x r x' ⟨h1, h2, h3, h4, h5, h6, h7⟩ hg hi ha => by
      simp only [clock, methodIntegrate, integrate, Option.map_map, Option.map_eq_some_iff, Function.comp] at hi
      obtain ⟨res, hres, rfl⟩ := hi
      obtain ⟨rej, _, hA, hfs⟩ := adaptiveLoop_refines (fun _ _ : ℝ => (1 : ℝ)) (fun _ => 1) (fun _ _ => rfl) bs5 bs5_fsal 4 _ hest.nonneg x.p.tstep inner
        facmaxDefault x.p.dt _ [] res (by norm_num [facmaxDefault]) h5 hres
      obtain ⟨-, -, -, -, hpos, hnext, -⟩ := adaptiveLoop_sizes (fun _ _ : ℝ => (1 : ℝ)) bs5 4 true _ hest.nonneg x.p.tstep inner facmaxDefault x.p.dt _ []
        res (by norm_num [facmaxDefault]) h4 hres
      have htook := adaptiveLoop_took (fun _ _ : ℝ => (1 : ℝ)) bs5 4 true true _ hest.nonneg x.p.tstep inner facmaxDefault x.p.dt _ [] res
        (by norm_num [facmaxDefault]) hres
      rw [max_eq_left h4.le] at htook
      have hnew : res.arrays.u0 = x.s + res.took := by
        have := adapt_step hA
        simp only at this
        rw [this, Spec.rkNew]
        have : ∀ j, stages bs5.A (fun _ : ℝ => (1 : ℝ)) res.took x.s j = 1 := fun j => by rw [stages_eq]
        simp only [this, smul_eq_mul, mul_one, ← Finset.mul_sum, bs5_sum]
      have hclk : res.arrays.u0 = s + (x.p.t + res.took - p.t) := by
        rw [hnew, h1]
        ring
      have hlt : x.p.t + res.took < x.p.T + 1e-12 := lt_of_le_of_lt (by linarith) (lt_of_le_of_ne hg h7)
      have ha' := (afterIntegrate_alive (clock inner) x _ rfl).symm.trans ha
      simp only [Prod.mk.injEq, Option.some.injEq] at ha'
      obtain ⟨rfl, hb⟩ := ha'
      have e9 : (0 : ℝ) < 1e-12 := by norm_num
      have hs : ∀ q, (h5update (clock inner) q res.arrays.u0 x.h5).1 = res.arrays.u0 := fun q => by simp [h5update, resultState, clock]
      have hu : ∀ q u, (clock inner).update q u = u := fun _ _ => rfl
      have he : ∀ q u, (clock inner).end_of_tstep q u = endPeriodic q u := fun _ _ => rfl
      simp only [hu, hs, he, outP, endPeriodic] at hb ⊢
      by_cases g1 : |x.p.t + res.took - x.p.T| < 1e-12
      · rw [if_pos g1] at hb
        simp at hb
      · have hlow : x.p.t + res.took ≤ x.p.T - 1e-12 := by
          by_contra hc
          push Not at hc
          exact g1 (by rw [abs_lt]; constructor <;> linarith)
        rw [if_neg g1]
        by_cases g2 : |x.p.t + res.took + res.dt - x.p.T| < 1e-12 ∨ x.p.t + res.took + res.dt ≥ x.p.T + 1e-12
        · rw [if_pos g2]
          refine ⟨hclk, by linarith, Or.inr (by rw [← h6]; exact hlt.le), by linarith, Or.inr hfs, h6, ?_⟩
          simp only
          intro hc
          linarith
        · rw [if_neg g2]
          push Not at g2
          exact ⟨hclk, by linarith, Or.inr (by rw [← h6]; exact hlt.le), by linarith, Or.inr hfs, h6, g2.2.ne⟩
  obtain ⟨k1, k2, k3, -⟩ := key
  rw [k1]
  refine (abs_add_le _ _).trans (add_le_add_right ?_ _)
  rcases k3 with k3 | k3
  · rw [k3]; simp
  · rw [abs_of_nonneg (by linarith)]
    exact le_trans (by linarith) (le_abs_self _)

/-- The hypotheses of `C95_run` met: the clock from 0 to 2 started with steps of 0.3 ends at 2. -/
example : ∃ n k : ℕ, ∀ inner, k ≤ inner → ∀ fuel, n < fuel → ∃ st,
    solve (clock inner) fuel ⟨0, 0.3, 2, 0, 1, 1, true⟩ 5 ⟨false, false, ⟨⟨fun _ => none, 0, 0⟩, []⟩⟩ = .returned st ∧ |st.p.t - 2| < 1e-12 := by
  obtain ⟨n, k, h⟩ := C95_run (D := Unit) (fun _ _ : ℝ => (1 : ℝ)) (fun _ => 1) (fun _ _ => rfl) ⟨1, 0, 0, fun u => by simp⟩
    (est := fun e _ _ => .fin |e|) ⟨1, zero_le_one, fun e _ _ => ⟨_, rfl, abs_nonneg _, by simp⟩⟩ (|5| + |2 + 1e-12 - 0|)
    ⟨0, 0.3, 2, 0, 1, 1, true⟩ (by norm_num) rfl (by norm_num)
  refine ⟨n, k, fun inner hi fuel hf => ?_⟩
  obtain ⟨st, -, -, -, h4⟩ := h inner hi (clock inner) ⟨fun s => ⟨0, rfl⟩, rfl, fun _ _ => rfl, fun _ => rfl, fun _ _ => rfl, fun _ => rfl⟩ 5 _
    (fun st hst => clock_bounded inner _ (by norm_num) rfl (by norm_num) 5 _ st hst) fuel hf
  exact ⟨st, (h4 (by norm_num)).2, (h4 (by norm_num)).1⟩

end Example

end Solve

end SpectralDNS

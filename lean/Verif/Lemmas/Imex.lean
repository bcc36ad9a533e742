import Verif.Lemmas.Converge

/-!
# Convergence of semi-implicit methods for `y' = A y + F y` with `F` quadratic: Crank-Nicolson for `A`, explicit for `F`
-/

namespace SpectralDNS

open Finset Spec

variable {E : Type*} [NormedAddCommGroup E] [NormedSpace ℝ E]

/-- `‖g t h‖` is at most a constant times `h^n`. -/
def Small (D : ℝ → ℝ → Prop) (n : ℕ) (g : ℝ → ℝ → E) : Prop := ∃ C, 0 ≤ C ∧ ∀ t h, D t h → ‖g t h‖ ≤ C * h ^ n

section

variable {D : ℝ → ℝ → Prop} {n : ℕ} {g g' : ℝ → ℝ → E}

theorem Small.add (H : Small D n g) (H' : Small D n g') : Small D n fun t h => g t h + g' t h := by
  obtain ⟨C, hC, H⟩ := H
  obtain ⟨C', hC', H'⟩ := H'
  exact ⟨C + C', add_nonneg hC hC', fun t h hp => (norm_add_le _ _).trans (by rw [add_mul]; exact add_le_add (H t h hp) (H' t h hp))⟩

theorem Small.smul (H : Small D n g) (r : ℝ) : Small D n fun t h => r • g t h := by
  obtain ⟨C, hC, H⟩ := H
  exact ⟨|r| * C, by positivity, fun t h hp => by
    rw [norm_smul, Real.norm_eq_abs, mul_assoc]; exact mul_le_mul_of_nonneg_left (H t h hp) (abs_nonneg _)⟩

theorem Small.sub (H : Small D n g) (H' : Small D n g') : Small D n fun t h => g t h - g' t h := by
  have := H.add (H'.smul (-1))
  simpa [sub_eq_add_neg] using this

theorem Small.lin (H : Small D n g) (A : E →L[ℝ] E) : Small D n fun t h => A (g t h) := by
  obtain ⟨C, hC, H⟩ := H
  exact ⟨‖A‖ * C, by positivity, fun t h hp => by
    rw [mul_assoc]; exact (A.le_opNorm _).trans (mul_le_mul_of_nonneg_left (H t h hp) (norm_nonneg _))⟩

theorem Small.hmul (hD : ∀ t h, D t h → 0 ≤ h ∧ h ≤ 1) (H : Small D n g) : Small D (n + 1) fun t h => h • g t h := by
  obtain ⟨C, hC, H⟩ := H
  exact ⟨C, hC, fun t h hp => by
    rw [norm_smul, Real.norm_of_nonneg (hD t h hp).1, pow_succ]
    have := mul_le_mul_of_nonneg_left (H t h hp) (hD t h hp).1
    linarith⟩

theorem Small.weaken (hD : ∀ t h, D t h → 0 ≤ h ∧ h ≤ 1) (H : Small D (n + 1) g) : Small D n g := by
  obtain ⟨C, hC, H⟩ := H
  refine ⟨C, hC, fun t h hp => (H t h hp).trans (mul_le_mul_of_nonneg_left ?_ hC)⟩
  exact pow_le_pow_of_le_one (hD t h hp).1 (hD t h hp).2 (Nat.le_succ n)

theorem Small.congr (H : Small D n g) (h : ∀ t h, D t h → g' t h = g t h) : Small D n g' := by
  obtain ⟨C, hC, H⟩ := H
  exact ⟨C, hC, fun t x hp => by rw [h t x hp]; exact H t x hp⟩

end

/-- Taylor expansion of a solution and of its derivative. -/
theorem solution_taylor {f : E → E} (hf : QuadField f) {T : ℝ} {y : ℝ → E} (hy : SolvesOn f T y) :
    ∃ C, 0 ≤ C ∧ ∃ K : ℝ → E, ∀ t h, Inside T t h → ‖f (y t)‖ ≤ C ∧ ‖K t‖ ≤ C ∧
      ‖y (t + h) - y t - (h • f (y t) + (h ^ 2 / 2) • K t)‖ ≤ C * h ^ 3 ∧ ‖f (y (t + h)) - f (y t) - h • K t‖ ≤ C * h ^ 2 := by
  obtain ⟨R, hR, hyR⟩ := hy.bound
  obtain ⟨Mf, _, hMf, _, hfb, _⟩ := hf.bounds R
  obtain ⟨c, A, Q, hf⟩ := hf
  have hin : ∀ t h, Inside T t h → t ∈ Set.Icc 0 T := fun t h hp => ⟨hp.1, by linarith [hp.2.1, hp.2.2.2]⟩
  have hin' : ∀ t h, Inside T t h → t + h ∈ Set.Icc 0 T := fun t h hp => ⟨by linarith [hp.1, hp.2.1], hp.2.2.2⟩
  set M := Mf + (‖A‖ + 2 * (‖Q‖ * R)) + 2 * R with hMdef
  have hA : 0 ≤ ‖A‖ + 2 * (‖Q‖ * R) := by positivity
  have hM : 0 ≤ M := by rw [hMdef]; linarith
  have p1 : ∀ t h, Inside T t h → ‖f (y t)‖ ≤ M := fun t h hp =>
    (hfb _ (hyR t (hin t h hp))).trans (by rw [hMdef]; linarith)
  have p2 : ∀ t h, Inside T t h → ‖quadDeriv A Q (y t)‖ ≤ M := fun t h hp => by
    refine (quadDeriv_le A Q (y t)).trans ?_
    have := mul_le_mul_of_nonneg_left (hyR t (hin t h hp)) (norm_nonneg Q)
    rw [hMdef]; linarith
  have p3 : ∀ t h, Inside T t h → ∀ x ∈ Set.Icc 0 h, HasDerivWithinAt (fun h => y (t + h) - y t)
      (f (y t) + quadDeriv A Q (y t) (y (t + x) - y t) + Q (y (t + x) - y t) (y (t + x) - y t)) (Set.Icc 0 h) x := fun t h hp x hx => by
    have := hy.shift t h hp x hx
    refine this.congr_deriv ?_
    rw [← quad_expand hf, add_sub_cancel]
  have p4 : ∀ t h, Inside T t h → ‖y (t + h) - y t‖ ≤ M := fun t h hp => by
    refine (norm_sub_le _ _).trans ?_
    have h1 := hyR t (hin t h hp)
    have h2 := hyR (t + h) (hin' t h hp)
    rw [hMdef]; linarith
  have j2 := exact_jet (P := ℝ) (D := Inside T) inside_range inside_mono (F0 := fun t => f (y t)) (B := fun t => quadDeriv A Q (y t)) Q hM
    p1 p2 (v := fun t h => y (t + h) - y t) (fun t h hp => by simp) p3 p4 2
  have jk := j2.field inside_range Q hM p1 p2
  obtain ⟨C3, hC3, H3⟩ := jk.integral inside_range inside_mono (v := fun t h => y (t + h) - y t) (fun t h hp => by simp) p3
  obtain ⟨C2, hC2, H2⟩ := jk
  set K := fieldJet (fun t => f (y t)) (fun t => quadDeriv A Q (y t)) Q (exJet (fun t => f (y t)) (fun t => quadDeriv A Q (y t)) Q 2) with hK
  refine ⟨M + C2 + C3, by positivity, fun t => K t 1, fun t h hp => ?_⟩
  have hp0 : Inside T t 0 := inside_mono t _ 0 hp (le_refl _) hp.2.1
  have h0 := hp.2.1
  have e1 := (H3 t h hp).1
  have e3 := (H2 t h hp).1
  have e4 := (H2 t 0 hp0).1
  have e5 := (H2 t h hp).2 1 (by norm_num)
  rw [sum_intJet3] at e1
  rw [sum_jet2] at e3 e4
  dsimp only at e3 e4
  rw [← quad_expand hf, add_sub_cancel] at e3 e4
  rw [add_zero, zero_smul, add_zero, zero_pow two_ne_zero, mul_zero, norm_le_zero_iff, sub_eq_zero] at e4
  rw [← e4] at e1 e3
  have w3 := mul_nonneg hC3 (pow_nonneg h0 3)
  refine ⟨(p1 t h hp).trans (by linarith), e5.trans (by linarith), ?_, ?_⟩
  · have e : y (t + h) - y t - (h • f (y t) + (h ^ 2 / 2) • K t 1) =
        y (t + h) - y t - (h • (1 / ((0 : ℕ) + 1 : ℝ)) • f (y t) + h ^ 2 • (1 / ((1 : ℕ) + 1 : ℝ)) • K t 1) := by
      push_cast; module
    rw [e]
    refine e1.trans ?_
    have w1 := mul_nonneg hM (pow_nonneg h0 3)
    have w2 := mul_nonneg hC2 (pow_nonneg h0 3)
    have : C3 * h ^ (2 + 1) = C3 * h ^ 3 := rfl
    rw [this]; linarith
  · rw [sub_sub]
    refine e3.trans ?_
    have w1 := mul_nonneg hM (pow_nonneg h0 2)
    have w2 := mul_nonneg hC3 (pow_nonneg h0 2)
    linarith

/-- Values at the time `t + c h` expanded at `t`. -/
theorem taylor_small {f : E → E} (hf : QuadField f) {T : ℝ} {y : ℝ → E} (hy : SolvesOn f T y) (D : ℝ → ℝ → Prop) (cs : Set ℝ)
    (hcs : ∀ c ∈ cs, 0 ≤ c) (hin : ∀ c ∈ cs, ∀ t h, D t h → Inside T t (c * h)) (hone : cs.Nonempty) :
    ∃ K : ℝ → E, Small D 0 (fun t _ => f (y t)) ∧ Small D 0 (fun t _ => K t) ∧
      ∀ c ∈ cs, Small D 3 (fun t h => y (t + c * h) - y t - ((c * h) • f (y t) + ((c * h) ^ 2 / 2) • K t)) ∧
        Small D 2 (fun t h => f (y (t + c * h)) - f (y t) - (c * h) • K t) := by
  obtain ⟨C, hC, K, H⟩ := solution_taylor hf hy
  obtain ⟨c0, hc0⟩ := hone
  refine ⟨K, ⟨C, hC, fun t h hp => ?_⟩, ⟨C, hC, fun t h hp => ?_⟩, fun c hc => ⟨⟨C * c ^ 3, ?_, fun t h hp => ?_⟩, ⟨C * c ^ 2, by positivity, fun t h hp => ?_⟩⟩⟩
  · simpa using (H t _ (hin c0 hc0 t h hp)).1
  · simpa using (H t _ (hin c0 hc0 t h hp)).2.1
  · have := hcs c hc; positivity
  · rw [mul_assoc, ← mul_pow]; exact (H t _ (hin c hc t h hp)).2.2.1
  · rw [mul_assoc, ← mul_pow]; exact (H t _ (hin c hc t h hp)).2.2.2

/-- One implicit step for the error. -/
theorem cn_bound (A : E →L[ℝ] E) {d : ℝ} (hd : 0 ≤ d) (hdA : d * ‖A‖ ≤ 1) {e e' r : E} (h : e' = e + (d / 2) • A (e + e') + r) :
    ‖e'‖ ≤ (1 + 2 * (d * ‖A‖)) * ‖e‖ + 2 * ‖r‖ := by
  have h1 : ‖A (e + e')‖ ≤ ‖A‖ * (‖e‖ + ‖e'‖) := (A.le_opNorm _).trans (mul_le_mul_of_nonneg_left (norm_add_le _ _) (norm_nonneg _))
  have h2 : ‖e'‖ ≤ ‖e‖ + d / 2 * (‖A‖ * (‖e‖ + ‖e'‖)) + ‖r‖ := by
    calc ‖e'‖ = ‖e + (d / 2) • A (e + e') + r‖ := by rw [← h]
      _ ≤ ‖e‖ + ‖(d / 2) • A (e + e')‖ + ‖r‖ := (norm_add_le _ _).trans (add_le_add_left (norm_add_le _ _) _)
      _ ≤ _ := by
        rw [norm_smul, Real.norm_of_nonneg (by positivity)]
        have := mul_le_mul_of_nonneg_left h1 (by positivity : 0 ≤ d / 2)
        linarith
  set a := d * ‖A‖ with ha
  have ha0 : 0 ≤ a := by positivity
  have h3 : (1 - a / 2) * ‖e'‖ ≤ (1 + a / 2) * ‖e‖ + ‖r‖ := by
    have : d / 2 * (‖A‖ * (‖e‖ + ‖e'‖)) = a / 2 * (‖e‖ + ‖e'‖) := by rw [ha]; ring
    rw [this] at h2; linarith
  have n0 := norm_nonneg e
  have n1 := norm_nonneg r
  by_contra hc
  push Not at hc
  have h4 := mul_lt_mul_of_pos_left hc (by linarith : 0 < 1 - a / 2)
  have h5 : (1 + a / 2) * ‖e‖ ≤ (1 - a / 2) * ((1 + 2 * a) * ‖e‖) := by
    rw [← mul_assoc]
    refine mul_le_mul_of_nonneg_right ?_ n0
    nlinarith
  have h6 : ‖r‖ ≤ (1 - a / 2) * (2 * ‖r‖) := by nlinarith
  linarith

/-! ### Crank-Nicolson with two-step Adams-Bashforth -/

variable (A : E →L[ℝ] E) {F : E → E}

theorem quad_total (hF : QuadField F) : QuadField fun x => A x + F x := by
  obtain ⟨c, B, Q, h⟩ := hF
  exact ⟨c, A + B, Q, fun u => by show A u + F u = _; rw [h]; simp only [add_apply]; abel⟩

variable {T : ℝ} {y : ℝ → E}

theorem cnab2_local (hF : QuadField F) (hy : SolvesOn (fun x => A x + F x) T y) :
    (∃ C, 0 ≤ C ∧ ∀ t h, Inside T t h → ‖y (t + h) - y t - (h / 2) • A (y t + y (t + h)) - h • F (y t)‖ ≤ C * h ^ 2) ∧
    ∃ C, 0 ≤ C ∧ ∀ t h, 0 ≤ h → Inside T t (2 * h) → ‖y (t + 2 * h) - y (t + h) - (h / 2) • A (y (t + h) + y (t + 2 * h))
      - h • ((3 / 2 : ℝ) • F (y (t + h)) - (1 / 2 : ℝ) • F (y t))‖ ≤ C * h ^ 3 := by
  have hf := quad_total A hF
  constructor
  · obtain ⟨K, hf0, hK, H⟩ := taylor_small hf hy (Inside T) {1} (by simp) (by simp) (by simp)
    have h1 := (H 1 (by simp)).1
    have hD := inside_range (T := T)
    have key : Small (Inside T) 2 fun t h => (y (t + 1 * h) - y t - ((1 * h) • (A (y t) + F (y t)) + ((1 * h) ^ 2 / 2) • K t))
        + (1 / 2 : ℝ) • h • h • K t - (1 / 2 : ℝ) • (h • A (y (t + 1 * h) - y t - ((1 * h) • (A (y t) + F (y t)) + ((1 * h) ^ 2 / 2) • K t))
          + h • A (h • (A (y t) + F (y t))) + (1 / 2 : ℝ) • h • A (h • h • K t)) := by
      have a1 := (Small.weaken hD h1)
      have a2 := ((hK.hmul hD).hmul hD)
      have a3 := ((h1.lin A).hmul hD).weaken hD |>.weaken hD
      have a4 := ((hf0.hmul hD).lin A).hmul hD
      have a5 := ((a2.lin A).hmul hD).weaken hD
      exact (a1.add (a2.smul (1 / 2))).sub (((a3.add a4).add (a5.smul (1 / 2))).smul (1 / 2))
    obtain ⟨C, hC, key⟩ := key
    refine ⟨C, hC, fun t h hp => ?_⟩
    refine le_of_eq_of_le ?_ (key t h hp)
    congr 1
    simp only [one_mul, map_add, map_sub, map_smul]
    module
  · obtain ⟨K, hf0, hK, H⟩ := taylor_small hf hy (fun t h => 0 ≤ h ∧ Inside T t (2 * h)) {1, 2} (by simp)
      (by
        rintro c (rfl | rfl) t h ⟨h0, hp⟩
        · exact inside_mono t _ _ hp (by linarith) (by linarith)
        · exact hp) (by simp)
    have hD : ∀ t h, 0 ≤ h ∧ Inside T t (2 * h) → 0 ≤ h ∧ h ≤ 1 := fun t h hp => ⟨hp.1, by linarith [hp.2.2.2.1]⟩
    obtain ⟨h1, k1⟩ := H 1 (by simp)
    obtain ⟨h2, -⟩ := H 2 (by simp)
    have a2 := ((hK.hmul hD).hmul hD)
    have key := ((h2.sub h1).sub ((k1.hmul hD).smul (3 / 2))).sub (((((((h2.sub (h1.smul 2)).weaken hD).add a2).lin A).hmul hD)).smul (1 / 2))
    obtain ⟨C, hC, key⟩ := key
    refine ⟨C, hC, fun t h h0 hp => ?_⟩
    refine le_of_eq_of_le ?_ (key t h ⟨h0, hp⟩)
    congr 1
    simp only [one_mul, map_add, map_sub, map_smul]
    module

/-- Crank-Nicolson with Adams-Bashforth of order two for steps of equal size; `G n` stands for the nonlinear term one step earlier, at the start
anything within `c h` of the nonlinear term at the start. -/
theorem cnab2_global (hF : QuadField F) (hT : 0 ≤ T) (hy : SolvesOn (fun x => A x + F x) T y) {c : ℝ} (hc : 0 ≤ c) :
    ∃ C H0 : ℝ, 0 < H0 ∧ ∀ h, 0 ≤ h → h ≤ H0 → ∀ (x G : ℕ → E), x 0 = y 0 → ‖G 0 - F (y 0)‖ ≤ c * h → (∀ n, G (n + 1) = F (x n)) →
      (∀ n, x (n + 1) = x n + (h / 2) • A (x n + x (n + 1)) + h • ((3 / 2 : ℝ) • F (x n) - (1 / 2 : ℝ) • G n)) →
      ∀ n : ℕ, n * h ≤ T → ‖x n - y (n * h)‖ ≤ C * h ^ 2 := by
  obtain ⟨R, hR, hyR⟩ := hy.bound
  obtain ⟨⟨C1', hC1', Hloc1⟩, C2', hC2', Hloc2⟩ := cnab2_local A hF hy
  obtain ⟨_, L, _, hL, _, Hlip⟩ := hF.bounds (R + 1)
  set C1 := c + 2 * C1' with hC1d
  set C2 := 2 * C2' with hC2d
  have hC1 : 0 ≤ C1 := by positivity
  have hC2 : 0 ≤ C2 := by positivity
  set a := ‖A‖ with had
  have ha : 0 ≤ a := norm_nonneg A
  set Λ := 2 * a + 4 * L with hΛd
  have hΛ : 0 ≤ Λ := by positivity
  set K := (C1 + C2 * T) * Real.exp (Λ * T) with hK
  have hK0 : 0 ≤ K := by positivity
  refine ⟨K, min (min (1 / 2) (1 / (a + 1))) (1 / (K + 1)), lt_min (lt_min (by norm_num) (by positivity)) (by positivity),
    fun h h0 hh x G hx0 hG0 hG hx => ?_⟩
  have hh2 : h ≤ 1 / 2 := hh.trans ((min_le_left _ _).trans (min_le_left _ _))
  have hha : h * a ≤ 1 := by
    have := hh.trans ((min_le_left _ _).trans (min_le_right _ _))
    rw [le_div_iff₀ (by positivity)] at this
    nlinarith
  have hhK : h * (K + 1) ≤ 1 := by
    have := hh.trans (min_le_right _ _)
    rwa [le_div_iff₀ (by positivity)] at this
  let B : ℕ → ℝ := fun n => (C1 + C2 * (n * h)) * h ^ 2 * Real.exp (Λ * (n * h))
  have hB0 : ∀ n, 0 ≤ B n := fun n => by simp only [B]; positivity
  have hBK : ∀ n : ℕ, n * h ≤ T → B n ≤ K * h ^ 2 := by
    intro n hn
    have h1 : Real.exp (Λ * (n * h)) ≤ Real.exp (Λ * T) := Real.exp_le_exp.2 (mul_le_mul_of_nonneg_left hn (by positivity))
    calc B n ≤ (C1 + C2 * T) * h ^ 2 * Real.exp (Λ * T) := by simp only [B]; gcongr
      _ = K * h ^ 2 := by rw [hK]; ring
  have hsmall : ∀ n : ℕ, n * h ≤ T → B n ≤ 1 := by
    intro n hn
    refine (hBK n hn).trans ?_
    have h1 : h ^ 2 ≤ h := by nlinarith
    have := mul_le_mul_of_nonneg_left h1 hK0
    nlinarith
  have hball : ∀ (n : ℕ) (u : E), n * h ≤ T → ‖u - y (n * h)‖ ≤ B n → ‖u‖ ≤ R + 1 ∧ ‖y (n * h)‖ ≤ R + 1 := by
    intro n u hn hu
    have h1 := hyR (n * h) ⟨by positivity, hn⟩
    refine ⟨?_, by linarith⟩
    have : u = (u - y (n * h)) + y (n * h) := by abel
    rw [this]
    refine (norm_add_le _ _).trans ?_
    linarith [hu.trans (hsmall n hn)]
  have hstep : ∀ n : ℕ, (1 + h * Λ) * B (n + 1) + C2 * h ^ 3 ≤ B (n + 2) := by
    intro n
    have h1 : 1 + h * Λ ≤ Real.exp (Λ * h) := by have := Real.add_one_le_exp (Λ * h); nlinarith
    have h2 := mul_le_mul_of_nonneg_right h1 (hB0 (n + 1))
    have h3 : Real.exp (Λ * h) * B (n + 1) = (C1 + C2 * ((n + 1) * h)) * h ^ 2 * Real.exp (Λ * ((n + 2) * h)) := by
      simp only [B]
      push_cast
      rw [show Λ * (((n : ℝ) + 2) * h) = Λ * h + Λ * ((n + 1) * h) by ring, Real.exp_add]
      ring
    have h4 : C2 * h ^ 3 ≤ C2 * h * h ^ 2 * Real.exp (Λ * ((n + 2) * h)) := by
      have h6 : 1 ≤ Real.exp (Λ * (((n : ℝ) + 2) * h)) := Real.one_le_exp (by positivity)
      calc C2 * h ^ 3 = C2 * h * h ^ 2 * 1 := by ring
        _ ≤ _ := mul_le_mul_of_nonneg_left h6 (by positivity)
    have h5 : B (n + 2) = (C1 + C2 * ((n + 1) * h)) * h ^ 2 * Real.exp (Λ * ((n + 2) * h)) + C2 * h * h ^ 2 * Real.exp (Λ * ((n + 2) * h)) := by
      simp only [B]
      push_cast
      ring
    linarith
  have hBmono : ∀ n : ℕ, B n ≤ B (n + 1) := by
    intro n
    simp only [B]
    push_cast
    have : (n : ℝ) * h ≤ ((n : ℝ) + 1) * h := by nlinarith
    gcongr
  have hmain : ∀ n : ℕ, (n * h ≤ T → ‖x n - y (n * h)‖ ≤ B n) ∧ ((n + 1 : ℕ) * h ≤ T → ‖x (n + 1) - y ((n + 1 : ℕ) * h)‖ ≤ B (n + 1)) := by
    intro n
    induction n with
    | zero =>
      refine ⟨fun _ => by simpa [hx0] using hB0 0, fun h1 => ?_⟩
      have h2 := Hloc1 0 h ⟨le_refl _, h0, by linarith, by simpa using h1⟩
      rw [zero_add] at h2
      simp only [zero_add, Nat.cast_one, one_mul]
      have hxx := hx 0
      rw [zero_add, hx0] at hxx
      have hb := cn_bound A h0 hha (e := 0) (e' := x 1 - y h) (r := -(1 / 2 * h) • (G 0 - F (y 0))
          - (y h - y 0 - (h / 2) • A (y 0 + y h) - h • F (y 0))) (by
        have e : x 1 - y h = y 0 + (h / 2) • A (y 0 + x 1) + h • ((3 / 2 : ℝ) • F (y 0) - (1 / 2 : ℝ) • G 0) - y h := by rw [← hxx]
        have e' : A (0 + (x 1 - y h)) = A (y 0 + x 1) - A (y 0 + y h) := by rw [← map_sub]; congr 1; abel
        rw [e', e]
        module)
      rw [norm_zero, mul_zero, zero_add] at hb
      refine hb.trans ?_
      have n1 := norm_sub_le (-(1 / 2 * h) • (G 0 - F (y 0))) (y h - y 0 - (h / 2) • A (y 0 + y h) - h • F (y 0))
      rw [norm_smul, norm_neg, Real.norm_of_nonneg (by positivity)] at n1
      have n2 := mul_le_mul_of_nonneg_left hG0 (by positivity : 0 ≤ 1 / 2 * h)
      have n3 : 2 * ‖-(1 / 2 * h) • (G 0 - F (y 0)) - (y h - y 0 - (h / 2) • A (y 0 + y h) - h • F (y 0))‖ ≤ C1 * h ^ 2 := by
        rw [hC1d]; nlinarith
      refine n3.trans ?_
      simp only [B]
      have h6 : 1 ≤ Real.exp (Λ * (((1 : ℕ) : ℝ) * h)) := Real.one_le_exp (by positivity)
      calc C1 * h ^ 2 ≤ (C1 + C2 * (((1 : ℕ) : ℝ) * h)) * h ^ 2 * 1 := by
            have : 0 ≤ C2 * (((1 : ℕ) : ℝ) * h) * h ^ 2 := by positivity
            have h7 : (C1 + C2 * (((1 : ℕ) : ℝ) * h)) * h ^ 2 * 1 = C1 * h ^ 2 + C2 * (((1 : ℕ) : ℝ) * h) * h ^ 2 := by ring
            rw [h7]; linarith
        _ ≤ _ := mul_le_mul_of_nonneg_left h6 (by positivity)
    | succ n ih =>
      refine ⟨ih.2, fun h2 => ?_⟩
      have hn0 : (0 : ℝ) ≤ n := Nat.cast_nonneg n
      have hn1 : ((n + 1 : ℕ) : ℝ) * h ≤ T := by push_cast at h2 ⊢; nlinarith
      have hn : (n : ℝ) * h ≤ T := by push_cast at h2; nlinarith
      have e1 := ih.2 hn1
      have e0 := ih.1 hn
      obtain ⟨b1, b1'⟩ := hball (n + 1) _ hn1 e1
      obtain ⟨b0, b0'⟩ := hball n _ hn e0
      have l1 := Hlip _ _ b1 b1'
      have l0 := Hlip _ _ b0 b0'
      have hl := Hloc2 (n * h) h h0 ⟨by positivity, by positivity, by linarith, by push_cast at h2; linarith⟩
      have t1 : (n : ℝ) * h + h = ((n + 1 : ℕ) : ℝ) * h := by push_cast; ring
      have t2 : (n : ℝ) * h + 2 * h = ((n + 1 + 1 : ℕ) : ℝ) * h := by push_cast; ring
      rw [t1, t2] at hl
      have hxx := hx (n + 1)
      rw [hG n] at hxx
      set U2 := x (n + 1 + 1)
      set U1 := x (n + 1)
      set U0 := x n
      set Y0 := y (n * h)
      set Y1 := y ((n + 1 : ℕ) * h)
      set Y2 := y ((n + 1 + 1 : ℕ) * h)
      set τ := Y2 - Y1 - (h / 2) • A (Y1 + Y2) - h • ((3 / 2 : ℝ) • F Y1 - (1 / 2 : ℝ) • F Y0) with hτ
      have hb := cn_bound A h0 hha (e := U1 - Y1) (e' := U2 - Y2) (r := (3 / 2 * h) • (F U1 - F Y1) - (1 / 2 * h) • (F U0 - F Y0) - τ) (by
        have e : U2 - Y2 = U1 + (h / 2) • A (U1 + U2) + h • ((3 / 2 : ℝ) • F U1 - (1 / 2 : ℝ) • F U0) - Y2 := by rw [← hxx]
        rw [e, show (U1 - Y1) + (U1 + (h / 2) • A (U1 + U2) + h • ((3 / 2 : ℝ) • F U1 - (1 / 2 : ℝ) • F U0) - Y2) = (U1 + U2) - (Y1 + Y2) by
          rw [← hxx]; abel, map_sub, hτ]
        module)
      refine hb.trans ?_
      have n1 := norm_sub_le ((3 / 2 * h) • (F U1 - F Y1) - (1 / 2 * h) • (F U0 - F Y0)) τ
      have n2 := norm_sub_le ((3 / 2 * h) • (F U1 - F Y1)) ((1 / 2 * h) • (F U0 - F Y0))
      rw [norm_smul, norm_smul, Real.norm_of_nonneg (by positivity), Real.norm_of_nonneg (by positivity)] at n2
      have m1 : 3 / 2 * h * ‖F U1 - F Y1‖ ≤ 3 / 2 * h * (L * B (n + 1)) :=
        mul_le_mul_of_nonneg_left (l1.trans (mul_le_mul_of_nonneg_left e1 hL)) (by positivity)
      have m0 : 1 / 2 * h * ‖F U0 - F Y0‖ ≤ 1 / 2 * h * (L * B (n + 1)) :=
        mul_le_mul_of_nonneg_left (l0.trans (mul_le_mul_of_nonneg_left (e0.trans (hBmono n)) hL)) (by positivity)
      have m2 : (1 + 2 * (h * a)) * ‖U1 - Y1‖ ≤ (1 + 2 * (h * a)) * B (n + 1) := mul_le_mul_of_nonneg_left e1 (by positivity)
      have := hstep n
      have hid : (1 + h * Λ) * B (n + 1) + C2 * h ^ 3 =
          (1 + 2 * (h * a)) * B (n + 1) + 2 * (3 / 2 * h * (L * B (n + 1)) + 1 / 2 * h * (L * B (n + 1)) + C2' * h ^ 3) := by
        rw [hΛd, hC2d]; ring
      show _ ≤ B (n + 2)
      linarith
  exact fun n hn => ((hmain n).1 hn).trans (hBK n hn)

/-! ### Three substeps -/

/-- Substep over the fraction `γ` of `h`. -/
def SubStep (F : E → E) (h γ α β : ℝ) (x0 x x' : E) : Prop :=
  x' = x + (γ * h / 2) • A (x + x') + (γ * h) • (α • F x + β • F x0)

/-- What remains when the solution is inserted. -/
noncomputable def subRes (F : E → E) (h γ α β : ℝ) (x0 x x' : E) : E :=
  x' - x - (γ * h / 2) • A (x + x') - (γ * h) • (α • F x + β • F x0)

theorem rk3_local (hF : QuadField F) (hy : SolvesOn (fun x => A x + F x) T y) :
    ∃ C, 0 ≤ C ∧ ∀ t h, Inside T t h →
      let τ0 := subRes A F h (8 / 15) 1 0 (y t) (y t) (y (t + 8 / 15 * h))
      let τ1 := subRes A F h (2 / 15) (25 / 8) (-17 / 8) (y t) (y (t + 8 / 15 * h)) (y (t + 2 / 3 * h))
      let τ2 := subRes A F h (1 / 3) (9 / 4) (-5 / 4) (y (t + 8 / 15 * h)) (y (t + 2 / 3 * h)) (y (t + h))
      ‖τ0‖ ≤ C * h ^ 2 ∧ ‖τ1‖ ≤ C * h ^ 2 ∧ ‖τ2‖ ≤ C * h ^ 2 ∧ ‖τ0 + τ1 + τ2‖ ≤ C * h ^ 3 := by
  have hf := quad_total A hF
  have hD := inside_range (T := T)
  obtain ⟨K, hf0, hK, H⟩ := taylor_small hf hy (Inside T) {8 / 15, 2 / 3, 1} (by
      rintro c (rfl | rfl | rfl) <;> norm_num) (by
      rintro c (rfl | rfl | rfl) t h hp
      · exact inside_mono t _ _ hp (by linarith [hp.2.1]) (by linarith [hp.2.1])
      · exact inside_mono t _ _ hp (by linarith [hp.2.1]) (by linarith [hp.2.1])
      · rwa [one_mul]) (by simp)
  obtain ⟨a1, b1⟩ := H (8 / 15) (by simp)
  obtain ⟨a2, b2⟩ := H (2 / 3) (by simp)
  obtain ⟨a3, -⟩ := H 1 (by simp)
  simp only [one_mul] at a3
  have k2 := (hK.hmul hD).hmul hD
  have f1 := hf0.hmul hD
  -- differences of the solution to its value at the beginning
  have d1 : Small (Inside T) 1 fun t h => y (t + 8 / 15 * h) - y t :=
    ((a1.weaken hD).weaken hD |>.add (f1.smul (8 / 15)) |>.add ((k2.weaken hD).smul ((8 / 15) ^ 2 / 2))).congr fun t h _ => by module
  have d2 : Small (Inside T) 1 fun t h => y (t + 2 / 3 * h) - y t :=
    ((a2.weaken hD).weaken hD |>.add (f1.smul (2 / 3)) |>.add ((k2.weaken hD).smul ((2 / 3) ^ 2 / 2))).congr fun t h _ => by module
  have d3 : Small (Inside T) 1 fun t h => y (t + h) - y t :=
    ((a3.weaken hD).weaken hD |>.add f1 |>.add ((k2.weaken hD).smul (1 / 2))).congr fun t h _ => by module
  have s0 : Small (Inside T) 2 fun t h => subRes A F h (8 / 15) 1 0 (y t) (y t) (y (t + 8 / 15 * h)) := by
    refine ((a1.weaken hD).add (k2.smul ((8 / 15) ^ 2 / 2)) |>.sub (((d1.lin A).hmul hD).smul (4 / 15))).congr fun t h _ => ?_
    simp only [subRes, map_add, map_sub]
    module
  have s1 : Small (Inside T) 2 fun t h => subRes A F h (2 / 15) (25 / 8) (-17 / 8) (y t) (y (t + 8 / 15 * h)) (y (t + 2 / 3 * h)) := by
    refine (((a2.sub a1).weaken hD).sub ((b1.hmul hD).weaken hD |>.smul (5 / 12)) |>.sub (k2.smul (32 / 225)) |>.add
      ((((d1.smul (7 / 20)).sub (d2.smul (1 / 15))).lin A).hmul hD)).congr fun t h _ => ?_
    simp only [subRes, map_add, map_sub, map_smul]
    module
  have s2 : Small (Inside T) 2 fun t h =>
      subRes A F h (1 / 3) (9 / 4) (-5 / 4) (y (t + 8 / 15 * h)) (y (t + 2 / 3 * h)) (y (t + h)) := by
    refine (((a3.sub a2).weaken hD).sub ((b2.hmul hD).weaken hD |>.smul (3 / 4)) |>.add ((b1.hmul hD).weaken hD |>.smul (5 / 12)) |>.add
      (((((d2.smul (7 / 12)).sub (d3.smul (1 / 6))).sub (d1.smul (5 / 12))).lin A).hmul hD)).congr fun t h _ => ?_
    simp only [subRes, map_add, map_sub, map_smul]
    module
  have s3 : Small (Inside T) 3 fun t h => subRes A F h (8 / 15) 1 0 (y t) (y t) (y (t + 8 / 15 * h))
      + subRes A F h (2 / 15) (25 / 8) (-17 / 8) (y t) (y (t + 8 / 15 * h)) (y (t + 2 / 3 * h))
      + subRes A F h (1 / 3) (9 / 4) (-5 / 4) (y (t + 8 / 15 * h)) (y (t + 2 / 3 * h)) (y (t + h)) := by
    -- the linear terms
    have w : Small (Inside T) 2 fun t h => (-1 / 3 : ℝ) • (y (t + 8 / 15 * h) - y t) + (31 / 60 : ℝ) • (y (t + 2 / 3 * h) - y t)
        - (1 / 6 : ℝ) • (y (t + h) - y t) :=
      (((a1.weaken hD).smul (-1 / 3)).add ((a2.weaken hD).smul (31 / 60)) |>.sub ((a3.weaken hD).smul (1 / 6)) |>.add
        (k2.smul ((-1 / 3) * (8 / 15) ^ 2 / 2 + 31 / 60 * (2 / 3) ^ 2 / 2 - 1 / 12))).congr fun t h _ => by module
    refine (a3.sub ((b2.hmul hD).smul (3 / 4)) |>.add ((w.lin A).hmul hD)).congr fun t h _ => ?_
    simp only [subRes, map_add, map_sub, map_smul]
    module
  obtain ⟨C0, hC0, H0⟩ := s0
  obtain ⟨C1, hC1, H1⟩ := s1
  obtain ⟨C2, hC2, H2⟩ := s2
  obtain ⟨C3, hC3, H3⟩ := s3
  refine ⟨C0 + C1 + C2 + C3, by positivity, fun t h hp => ⟨(H0 t h hp).trans ?_, (H1 t h hp).trans ?_, (H2 t h hp).trans ?_, (H3 t h hp).trans ?_⟩⟩ <;>
  · have := hp.2.1
    gcongr
    linarith

theorem sub_error {h γ α β : ℝ} {x0 x x' : E} (hs : SubStep A F h γ α β x0 x x') (Y0 Y Y' : E) :
    x' - Y' = (x - Y) + (γ * h / 2) • A ((x - Y) + (x' - Y')) +
      ((γ * h) • (α • (F x - F Y) + β • (F x0 - F Y0)) - subRes A F h γ α β Y0 Y Y') := by
  have e : x' - Y' = x + (γ * h / 2) • A (x + x') + (γ * h) • (α • F x + β • F x0) - Y' := by
    nth_rewrite 1 [show x' = x + (γ * h / 2) • A (x + x') + (γ * h) • (α • F x + β • F x0) from hs]; rfl
  have e' : A ((x - Y) + (x' - Y')) = A (x + x') - A (Y + Y') := by rw [← map_sub]; congr 1; abel
  rw [e', e, subRes]
  module

theorem sub_bound {h γ α β L C : ℝ} (h0 : 0 ≤ h) (h1 : h ≤ 1) (hA : h * ‖A‖ ≤ 1) (hγ0 : 0 ≤ γ) (hγ1 : γ ≤ 1) (hα : γ * |α| ≤ 1) (hβ : γ * |β| ≤ 1)
    (hL : 0 ≤ L) {x0 x x' : E} (hs : SubStep A F h γ α β x0 x x') {Y0 Y Y' : E} (l : ‖F x - F Y‖ ≤ L * ‖x - Y‖)
    (l0 : ‖F x0 - F Y0‖ ≤ L * ‖x0 - Y0‖) (hτ : ‖subRes A F h γ α β Y0 Y Y'‖ ≤ C * h ^ 2) :
    ‖x' - Y'‖ ≤ (3 + 2 * L) * ‖x - Y‖ + 2 * L * ‖x0 - Y0‖ + 2 * (C * h ^ 2) ∧
      ‖x' - Y' - (x - Y) + subRes A F h γ α β Y0 Y Y'‖ ≤ h * (‖A‖ * (‖x - Y‖ + ‖x' - Y'‖) + L * (‖x - Y‖ + ‖x0 - Y0‖)) := by
  have he := sub_error A hs Y0 Y Y'
  set τ := subRes A F h γ α β Y0 Y Y'
  have n0 := norm_nonneg (x - Y)
  have n00 := norm_nonneg (x0 - Y0)
  have hn : ‖(γ * h) • (α • (F x - F Y) + β • (F x0 - F Y0))‖ ≤ h * (L * (‖x - Y‖ + ‖x0 - Y0‖)) := by
    have k1 := norm_add_le (α • (F x - F Y)) (β • (F x0 - F Y0))
    rw [norm_smul, norm_smul, Real.norm_eq_abs, Real.norm_eq_abs] at k1
    rw [norm_smul, Real.norm_of_nonneg (by positivity)]
    have k2 : γ * (|α| * ‖F x - F Y‖) ≤ L * ‖x - Y‖ := by
      rw [← mul_assoc]
      calc γ * |α| * ‖F x - F Y‖ ≤ 1 * (L * ‖x - Y‖) := mul_le_mul hα l (norm_nonneg _) zero_le_one
        _ = _ := one_mul _
    have k3 : γ * (|β| * ‖F x0 - F Y0‖) ≤ L * ‖x0 - Y0‖ := by
      rw [← mul_assoc]
      calc γ * |β| * ‖F x0 - F Y0‖ ≤ 1 * (L * ‖x0 - Y0‖) := mul_le_mul hβ l0 (norm_nonneg _) zero_le_one
        _ = _ := one_mul _
    have k4 := mul_le_mul_of_nonneg_left k1 (by positivity : 0 ≤ γ * h)
    have k5 := mul_le_mul_of_nonneg_left (add_le_add k2 k3) h0
    nlinarith
  constructor
  · have hγA : γ * h * ‖A‖ ≤ 1 := by
      have : γ * (h * ‖A‖) ≤ 1 * 1 := mul_le_mul hγ1 hA (by positivity) zero_le_one
      linarith
    have hb := cn_bound A (by positivity : 0 ≤ γ * h) hγA he
    have k := norm_sub_le ((γ * h) • (α • (F x - F Y) + β • (F x0 - F Y0))) τ
    have k2 : h * (L * (‖x - Y‖ + ‖x0 - Y0‖)) ≤ 1 * (L * (‖x - Y‖ + ‖x0 - Y0‖)) := mul_le_mul_of_nonneg_right h1 (by positivity)
    have k3 : (1 + 2 * (γ * h * ‖A‖)) * ‖x - Y‖ ≤ 3 * ‖x - Y‖ := mul_le_mul_of_nonneg_right (by linarith) n0
    linarith
  · have e : x' - Y' - (x - Y) + τ = (γ * h / 2) • A ((x - Y) + (x' - Y')) + (γ * h) • (α • (F x - F Y) + β • (F x0 - F Y0)) := by
      nth_rewrite 1 [he]; abel
    rw [e]
    refine (norm_add_le _ _).trans ?_
    have k1 : ‖A ((x - Y) + (x' - Y'))‖ ≤ ‖A‖ * (‖x - Y‖ + ‖x' - Y'‖) :=
      (A.le_opNorm _).trans (mul_le_mul_of_nonneg_left (norm_add_le _ _) (norm_nonneg _))
    rw [norm_smul, Real.norm_of_nonneg (by positivity)]
    have k2 : γ * h / 2 * ‖A ((x - Y) + (x' - Y'))‖ ≤ h * (‖A‖ * (‖x - Y‖ + ‖x' - Y'‖)) :=
      mul_le_mul (by nlinarith) k1 (norm_nonneg _) h0
    linarith

/-- A step of three substeps. -/
def RK3Step (F : E → E) (h : ℝ) (x x' : E) : Prop :=
  ∃ x1 x2, SubStep A F h (8 / 15) 1 0 x x x1 ∧ SubStep A F h (2 / 15) (25 / 8) (-17 / 8) x x1 x2 ∧ SubStep A F h (1 / 3) (9 / 4) (-5 / 4) x1 x2 x'

/-- One step of the error. -/
theorem rk3_step_error {R L C h m P : ℝ} (hC : 0 ≤ C) (hL : 0 ≤ L) (h0 : 0 ≤ h) (h1 : h ≤ 1) (hha : h * ‖A‖ ≤ 1)
    (Hlip : ∀ u w, ‖u‖ ≤ R + 1 → ‖w‖ ≤ R + 1 → ‖F u - F w‖ ≤ L * ‖u - w‖) {x x1 x2 x3 Y0 Y1 Y2 Y3 : E} (hm : m = 3 + 4 * L + 2 * C)
    (hP : P = ‖x - Y0‖ + h ^ 2) (hmP : m ^ 3 * P ≤ 1) (y0 : ‖Y0‖ ≤ R) (y1 : ‖Y1‖ ≤ R) (y2 : ‖Y2‖ ≤ R)
    (r0 : SubStep A F h (8 / 15) 1 0 x x x1) (r1 : SubStep A F h (2 / 15) (25 / 8) (-17 / 8) x x1 x2)
    (r2 : SubStep A F h (1 / 3) (9 / 4) (-5 / 4) x1 x2 x3) (τ0 : ‖subRes A F h (8 / 15) 1 0 Y0 Y0 Y1‖ ≤ C * h ^ 2)
    (τ1 : ‖subRes A F h (2 / 15) (25 / 8) (-17 / 8) Y0 Y1 Y2‖ ≤ C * h ^ 2)
    (τ2 : ‖subRes A F h (1 / 3) (9 / 4) (-5 / 4) Y1 Y2 Y3‖ ≤ C * h ^ 2)
    (τs : ‖subRes A F h (8 / 15) 1 0 Y0 Y0 Y1 + subRes A F h (2 / 15) (25 / 8) (-17 / 8) Y0 Y1 Y2
      + subRes A F h (1 / 3) (9 / 4) (-5 / 4) Y1 Y2 Y3‖ ≤ C * h ^ 3) :
    ‖x3 - Y3‖ ≤ (1 + h * (6 * m ^ 3 * (‖A‖ + L))) * ‖x - Y0‖ + (6 * m ^ 3 * (‖A‖ + L) + C) * h ^ (2 + 1) := by
  have hm1 : 1 ≤ m := by rw [hm]; linarith
  have hP0 : 0 ≤ P := by rw [hP]; positivity
  have hPh : h ^ 2 ≤ P := by rw [hP]; linarith [norm_nonneg (x - Y0)]
  have m0 : P ≤ m * P := by nlinarith
  have m01 : m * P ≤ m ^ 2 * P := by nlinarith [mul_nonneg (by linarith : 0 ≤ m) hP0]
  have m12 : m ^ 2 * P ≤ m ^ 3 * P := by nlinarith [mul_nonneg (by positivity : 0 ≤ m ^ 2) hP0]
  have ball : ∀ u Y : E, ‖Y‖ ≤ R → ‖u - Y‖ ≤ 1 → ‖u‖ ≤ R + 1 := fun u Y hY hu => by
    have : u = (u - Y) + Y := by abel
    rw [this]
    exact (norm_add_le _ _).trans (by linarith)
  have q0 : ‖x - Y0‖ ≤ P := by rw [hP]; linarith [sq_nonneg h]
  have b0 := ball _ _ y0 (by linarith)
  have l0 := Hlip _ _ b0 (by linarith : ‖Y0‖ ≤ R + 1)
  have hCh : C * h ^ 2 ≤ C * P := mul_le_mul_of_nonneg_left hPh hC
  have w0 := sub_bound A h0 h1 hha (by norm_num) (by norm_num) (by norm_num) (by norm_num) hL r0 l0 l0 τ0
  have q1 : ‖x1 - Y1‖ ≤ m * P := by
    have t1 := mul_le_mul_of_nonneg_left q0 (by positivity : 0 ≤ 3 + 2 * L)
    have t2 := mul_le_mul_of_nonneg_left q0 (by positivity : 0 ≤ 2 * L)
    have : m * P = (3 + 2 * L) * P + 2 * L * P + 2 * (C * P) := by rw [hm]; ring
    linarith [w0.1]
  have b1 := ball _ _ y1 (by linarith)
  have l1 := Hlip _ _ b1 (by linarith : ‖Y1‖ ≤ R + 1)
  have w1 := sub_bound A h0 h1 hha (by norm_num) (by norm_num) (by norm_num [abs_of_pos]) (by norm_num [abs_of_neg]) hL r1 l1 l0 τ1
  have q2 : ‖x2 - Y2‖ ≤ m ^ 2 * P := by
    have t1 := mul_le_mul_of_nonneg_left q1 (by positivity : 0 ≤ 3 + 2 * L)
    have t2 := mul_le_mul_of_nonneg_left (q0.trans m0) (by positivity : 0 ≤ 2 * L)
    have t3 := mul_le_mul_of_nonneg_left m0 hC
    have : m ^ 2 * P = (3 + 2 * L) * (m * P) + 2 * L * (m * P) + 2 * (C * (m * P)) := by
      rw [pow_two, mul_assoc]; nth_rewrite 1 [hm]; ring
    linarith [w1.1]
  have b2 := ball _ _ y2 (by linarith)
  have l2 := Hlip _ _ b2 (by linarith : ‖Y2‖ ≤ R + 1)
  have w2 := sub_bound A h0 h1 hha (by norm_num) (by norm_num) (by norm_num [abs_of_pos]) (by norm_num [abs_of_neg]) hL r2 l2 l1 τ2
  have q3 : ‖x3 - Y3‖ ≤ m ^ 3 * P := by
    have t1 := mul_le_mul_of_nonneg_left q2 (by positivity : 0 ≤ 3 + 2 * L)
    have t2 := mul_le_mul_of_nonneg_left (q1.trans m01) (by positivity : 0 ≤ 2 * L)
    have t3 := mul_le_mul_of_nonneg_left (m0.trans m01) hC
    have : m ^ 3 * P = (3 + 2 * L) * (m ^ 2 * P) + 2 * L * (m ^ 2 * P) + 2 * (C * (m ^ 2 * P)) := by
      rw [pow_succ' m 2, mul_assoc]; nth_rewrite 1 [hm]; ring
    linarith [w2.1]
  have Q0 : ‖x - Y0‖ ≤ m ^ 3 * P := by linarith
  have Q1 : ‖x1 - Y1‖ ≤ m ^ 3 * P := by linarith
  have Q2 : ‖x2 - Y2‖ ≤ m ^ 3 * P := by linarith
  have bd : ∀ p q r s : ℝ, p ≤ m ^ 3 * P → q ≤ m ^ 3 * P → r ≤ m ^ 3 * P → s ≤ m ^ 3 * P →
      h * (‖A‖ * (p + q) + L * (r + s)) ≤ h * (2 * (‖A‖ + L) * (m ^ 3 * P)) := fun p q r s hp hq hr hs => by
    refine mul_le_mul_of_nonneg_left ?_ h0
    have := mul_le_mul_of_nonneg_left (add_le_add hp hq) (norm_nonneg A)
    have := mul_le_mul_of_nonneg_left (add_le_add hr hs) hL
    linarith
  have v0 := w0.2.trans (bd _ _ _ _ Q0 Q1 Q0 Q0)
  have v1 := w1.2.trans (bd _ _ _ _ Q1 Q2 Q1 Q0)
  have v2 := w2.2.trans (bd _ _ _ _ Q2 q3 Q2 Q1)
  set σ0 := subRes A F h (8 / 15) 1 0 Y0 Y0 Y1
  set σ1 := subRes A F h (2 / 15) (25 / 8) (-17 / 8) Y0 Y1 Y2
  set σ2 := subRes A F h (1 / 3) (9 / 4) (-5 / 4) Y1 Y2 Y3
  have tot : x3 - Y3 = (x - Y0) + ((x1 - Y1 - (x - Y0) + σ0) + (x2 - Y2 - (x1 - Y1) + σ1) + (x3 - Y3 - (x2 - Y2) + σ2))
      - (σ0 + σ1 + σ2) := by abel
  have fin : ‖x3 - Y3‖ ≤ (1 + h * (6 * m ^ 3 * (‖A‖ + L))) * ‖x - Y0‖ + (6 * m ^ 3 * (‖A‖ + L) + C) * h ^ (2 + 1) := by
    rw [tot]
    refine (norm_sub_le _ _).trans ?_
    have u1 := norm_add_le (x - Y0) ((x1 - Y1 - (x - Y0) + σ0) + (x2 - Y2 - (x1 - Y1) + σ1) + (x3 - Y3 - (x2 - Y2) + σ2))
    have u2 := norm_add_le ((x1 - Y1 - (x - Y0) + σ0) + (x2 - Y2 - (x1 - Y1) + σ1)) (x3 - Y3 - (x2 - Y2) + σ2)
    have u3 := norm_add_le (x1 - Y1 - (x - Y0) + σ0) (x2 - Y2 - (x1 - Y1) + σ1)
    have id : 3 * (h * (2 * (‖A‖ + L) * (m ^ 3 * P))) + C * h ^ 3 = h * (6 * m ^ 3 * (‖A‖ + L)) * ‖x - Y0‖ + (6 * m ^ 3 * (‖A‖ + L) + C) * h ^ (2 + 1) := by
      rw [hP]; ring
    linarith
  exact fin

theorem rk3_global (hF : QuadField F) (hT : 0 ≤ T) (hy : SolvesOn (fun x => A x + F x) T y) :
    ∃ C H0 : ℝ, 0 < H0 ∧ ∀ h, 0 ≤ h → h ≤ H0 → ∀ x : ℕ → E, x 0 = y 0 → (∀ n, RK3Step A F h (x n) (x (n + 1))) →
      ∀ n : ℕ, n * h ≤ T → ‖x n - y (n * h)‖ ≤ C * h ^ 2 := by
  obtain ⟨R, hR, hyR⟩ := hy.bound
  obtain ⟨C, hC, Hloc⟩ := rk3_local A hF hy
  obtain ⟨_, L, _, hL, _, Hlip⟩ := hF.bounds (R + 1)
  set a := ‖A‖ with had
  have ha : 0 ≤ a := norm_nonneg A
  set m := 3 + 4 * L + 2 * C with hm
  have hm1 : 1 ≤ m := by rw [hm]; linarith
  set Λ := 6 * m ^ 3 * (a + L) with hΛd
  have hΛ : 0 ≤ Λ := by positivity
  set Cs := Λ + C with hCs
  have hCs0 : 0 ≤ Cs := by positivity
  set K := Cs * T * Real.exp (Λ * T) with hK
  have hK0 : 0 ≤ K := by positivity
  set Z := m ^ 3 * (K + 1) with hZ
  have hZ0 : 0 ≤ Z := by positivity
  refine ⟨K, min (min 1 (1 / (a + 1))) (1 / (Z + 1)), lt_min (lt_min one_pos (by positivity)) (by positivity), fun h h0 hh x hx0 hx => ?_⟩
  have h1 : h ≤ 1 := hh.trans ((min_le_left _ _).trans (min_le_left _ _))
  have hha : h * a ≤ 1 := by
    have := hh.trans ((min_le_left _ _).trans (min_le_right _ _))
    rw [le_div_iff₀ (by positivity)] at this
    nlinarith
  have hhZ : h * Z ≤ 1 := by
    have := hh.trans (min_le_right _ _)
    rw [le_div_iff₀ (by positivity)] at this
    nlinarith
  have hh2 : h ^ 2 ≤ h := by nlinarith
  have hbK : ∀ n : ℕ, n * h ≤ T → Cs * (n * h) * h ^ 2 * Real.exp (Λ * (n * h)) ≤ K * h ^ 2 := by
    intro n hn
    calc _ ≤ Cs * T * h ^ 2 * Real.exp (Λ * T) := by gcongr
      _ = K * h ^ 2 := by rw [hK]; ring
  have hmain : ∀ n : ℕ, n * h ≤ T → ‖x n - y (n * h)‖ ≤ Cs * (n * h) * h ^ 2 * Real.exp (Λ * (n * h)) := by
    intro n
    induction n with
    | zero => intro _; rw [hx0, Nat.cast_zero, zero_mul, sub_self, norm_zero, mul_zero, zero_mul, zero_mul]
    | succ n ih =>
      intro h2
      have hn0 : (0 : ℝ) ≤ n := Nat.cast_nonneg n
      have hn : (n : ℝ) * h ≤ T := by push_cast at h2; linarith only [h2, h0]
      have e0 := ih hn
      have hp : Inside T (n * h) h := ⟨mul_nonneg hn0 h0, h0, h1, by push_cast at h2; linarith only [h2]⟩
      obtain ⟨τ0, τ1, τ2, τs⟩ := Hloc (n * h) h hp
      obtain ⟨x1, x2, r0, r1, r2⟩ := hx n
      have ts : ((n + 1 : ℕ) : ℝ) * h = n * h + h := by push_cast; ring
      rw [ts]
      set Y0 := y (n * h)
      set Y1 := y (n * h + 8 / 15 * h) with hY1
      set Y2 := y (n * h + 2 / 3 * h) with hY2
      set Y3 := y (n * h + h)
      have y0 : ‖Y0‖ ≤ R := hyR _ ⟨hp.1, hn⟩
      have y1 : ‖Y1‖ ≤ R := hyR _ ⟨by linarith only [hp.1, h0], by linarith only [hp.2.2.2, h0]⟩
      have y2 : ‖Y2‖ ≤ R := hyR _ ⟨by linarith only [hp.1, h0], by linarith only [hp.2.2.2, h0]⟩
      have hmP : m ^ 3 * (‖x n - Y0‖ + h ^ 2) ≤ 1 := by
        have : ‖x n - Y0‖ + h ^ 2 ≤ (K + 1) * h ^ 2 := by linarith [e0.trans (hbK n hn)]
        calc m ^ 3 * (‖x n - Y0‖ + h ^ 2) ≤ m ^ 3 * ((K + 1) * h ^ 2) := mul_le_mul_of_nonneg_left this (by positivity)
          _ = Z * h ^ 2 := by rw [hZ]; ring
          _ ≤ Z * h := mul_le_mul_of_nonneg_left hh2 hZ0
          _ ≤ 1 := by linarith
      have fin := rk3_step_error A hC hL h0 h1 hha Hlip hm rfl hmP y0 y1 y2 r0 r1 r2 τ0 τ1 τ2 τs
      exact fin.trans (gronwall_step hCs0 hΛ (by positivity) h0 le_rfl e0 (norm_nonneg _))
  exact fun n hn => (hmain n hn).trans (hbK n hn)

end SpectralDNS

import Verif.Lemmas.Imex

/-!
# Three substeps with one linear term taken at the start of every substep
-/

namespace SpectralDNS

open Finset Spec

variable {E : Type*} [NormedAddCommGroup E] [NormedSpace ℝ E] (A B : E →L[ℝ] E) {F : E → E} {T : ℝ} {y : ℝ → E}

/-- Substep over the fraction `γ` of `h`; the term `B` is taken at the start of the substep. -/
def SplitStep (F : E → E) (h γ α β : ℝ) (x0 x x' : E) : Prop :=
  x' = x + (γ * h / 2) • A (x + x') + (γ * h) • (α • F x + β • F x0 + B x)

/-- A step of three substeps. -/
def SplitRK3 (F : E → E) (h : ℝ) (x x' : E) : Prop :=
  ∃ x1 x2, SplitStep A B F h (8 / 15) 1 0 x x x1 ∧ SplitStep A B F h (2 / 15) (25 / 8) (-17 / 8) x x1 x2 ∧
    SplitStep A B F h (1 / 3) (9 / 4) (-5 / 4) x1 x2 x'

/-- The same substep with `B` treated like `F`, and what then remains. -/
theorem split_eq {h γ α β : ℝ} (hab : α + β = 1) {x0 x x' : E} (hs : SplitStep A B F h γ α β x0 x x') :
    x' = x + (γ * h / 2) • A (x + x') + (γ * h) • (α • (F x + B x) + β • (F x0 + B x0)) + (γ * h * β) • B (x - x0) := by
  have hb : α = 1 - β := by linarith
  nth_rewrite 1 [show x' = x + (γ * h / 2) • A (x + x') + (γ * h) • (α • F x + β • F x0 + B x) from hs]
  rw [hb, map_sub]
  module

/-- `sub_bound` with an additional term `p`. -/
theorem sub_bound_p {h γ α β L C : ℝ} (h0 : 0 ≤ h) (h1 : h ≤ 1) (hA : h * ‖A‖ ≤ 1) (hγ0 : 0 ≤ γ) (hγ1 : γ ≤ 1) (hα : γ * |α| ≤ 1) (hβ : γ * |β| ≤ 1)
    (hL : 0 ≤ L) {x0 x x' p : E} (hs : x' = x + (γ * h / 2) • A (x + x') + (γ * h) • (α • F x + β • F x0) + p) {Y0 Y Y' : E}
    (l : ‖F x - F Y‖ ≤ L * ‖x - Y‖) (l0 : ‖F x0 - F Y0‖ ≤ L * ‖x0 - Y0‖) (hτ : ‖subRes A F h γ α β Y0 Y Y'‖ ≤ C * h ^ 2) :
    ‖x' - Y'‖ ≤ (3 + 2 * L) * ‖x - Y‖ + 2 * L * ‖x0 - Y0‖ + 2 * (C * h ^ 2 + ‖p‖) ∧
      ‖x' - Y' - (x - Y) + subRes A F h γ α β Y0 Y Y' - p‖ ≤ h * (‖A‖ * (‖x - Y‖ + ‖x' - Y'‖) + L * (‖x - Y‖ + ‖x0 - Y0‖)) := by
  have he : x' - Y' = (x - Y) + (γ * h / 2) • A ((x - Y) + (x' - Y')) +
      ((γ * h) • (α • (F x - F Y) + β • (F x0 - F Y0)) - subRes A F h γ α β Y0 Y Y' + p) := by
    have e : x' - Y' = x + (γ * h / 2) • A (x + x') + (γ * h) • (α • F x + β • F x0) + p - Y' := by
      nth_rewrite 1 [hs]; rfl
    have e' : A ((x - Y) + (x' - Y')) = A (x + x') - A (Y + Y') := by rw [← map_sub]; congr 1; abel
    rw [e', e, subRes]
    module
  set τ := subRes A F h γ α β Y0 Y Y'
  have n0 := norm_nonneg (x - Y)
  have n00 := norm_nonneg (x0 - Y0)
  have hn : ‖(γ * h) • (α • (F x - F Y) + β • (F x0 - F Y0))‖ ≤ h * (L * (‖x - Y‖ + ‖x0 - Y0‖)) := by
    have k1 := norm_add_le (α • (F x - F Y)) (β • (F x0 - F Y0))
    rw [norm_smul, norm_smul, Real.norm_eq_abs, Real.norm_eq_abs] at k1
    rw [norm_smul, Real.norm_of_nonneg (by positivity)]
    have k2 : γ * (|α| * ‖F x - F Y‖) ≤ L * ‖x - Y‖ := by
      rw [← mul_assoc]
      calc γ * |α| * ‖F x - F Y‖ ≤ 1 * (L * ‖x - Y‖) := mul_le_mul hα l (norm_nonneg _) zero_le_one
        _ = _ := one_mul _
    have k3 : γ * (|β| * ‖F x0 - F Y0‖) ≤ L * ‖x0 - Y0‖ := by
      rw [← mul_assoc]
      calc γ * |β| * ‖F x0 - F Y0‖ ≤ 1 * (L * ‖x0 - Y0‖) := mul_le_mul hβ l0 (norm_nonneg _) zero_le_one
        _ = _ := one_mul _
    have k4 := mul_le_mul_of_nonneg_left k1 (by positivity : 0 ≤ γ * h)
    have k5 := mul_le_mul_of_nonneg_left (add_le_add k2 k3) h0
    nlinarith
  constructor
  · have hγA : γ * h * ‖A‖ ≤ 1 := by
      have : γ * (h * ‖A‖) ≤ 1 * 1 := mul_le_mul hγ1 hA (by positivity) zero_le_one
      linarith
    have hb := cn_bound A (by positivity : 0 ≤ γ * h) hγA he
    have k := norm_add_le ((γ * h) • (α • (F x - F Y) + β • (F x0 - F Y0)) - τ) p
    have k' := norm_sub_le ((γ * h) • (α • (F x - F Y) + β • (F x0 - F Y0))) τ
    have k2 : h * (L * (‖x - Y‖ + ‖x0 - Y0‖)) ≤ 1 * (L * (‖x - Y‖ + ‖x0 - Y0‖)) := mul_le_mul_of_nonneg_right h1 (by positivity)
    have k3 : (1 + 2 * (γ * h * ‖A‖)) * ‖x - Y‖ ≤ 3 * ‖x - Y‖ := mul_le_mul_of_nonneg_right (by linarith) n0
    linarith
  · have e : x' - Y' - (x - Y) + τ - p = (γ * h / 2) • A ((x - Y) + (x' - Y')) + (γ * h) • (α • (F x - F Y) + β • (F x0 - F Y0)) := by
      nth_rewrite 1 [he]; abel
    rw [e]
    refine (norm_add_le _ _).trans ?_
    have k1 : ‖A ((x - Y) + (x' - Y'))‖ ≤ ‖A‖ * (‖x - Y‖ + ‖x' - Y'‖) :=
      (A.le_opNorm _).trans (mul_le_mul_of_nonneg_left (norm_add_le _ _) (norm_nonneg _))
    rw [norm_smul, Real.norm_of_nonneg (by positivity)]
    have k2 : γ * h / 2 * ‖A ((x - Y) + (x' - Y'))‖ ≤ h * (‖A‖ * (‖x - Y‖ + ‖x' - Y'‖)) :=
      mul_le_mul (by nlinarith) k1 (norm_nonneg _) h0
    linarith

/-- The solution at the stages, compared with the chord. -/
theorem chord_local {f : E → E} (hf : QuadField f) (hy : SolvesOn f T y) : ∃ C, 0 ≤ C ∧ ∀ t h, Inside T t h →
    ‖y (t + h) - y t‖ ≤ C * h ∧ ‖y (t + 8 / 15 * h) - y t - (8 / 15 : ℝ) • (y (t + h) - y t)‖ ≤ C * h ^ 2 ∧
      ‖y (t + 2 / 3 * h) - y (t + 8 / 15 * h) - (2 / 15 : ℝ) • (y (t + h) - y t)‖ ≤ C * h ^ 2 := by
  have hD := inside_range (T := T)
  obtain ⟨K, hf0, hK, H⟩ := taylor_small hf hy (Inside T) {8 / 15, 2 / 3, 1} (by
      rintro c (rfl | rfl | rfl) <;> norm_num) (by
      rintro c (rfl | rfl | rfl) t h hp
      · exact inside_mono t _ _ hp (by linarith [hp.2.1]) (by linarith [hp.2.1])
      · exact inside_mono t _ _ hp (by linarith [hp.2.1]) (by linarith [hp.2.1])
      · rwa [one_mul]) (by simp)
  obtain ⟨a1, -⟩ := H (8 / 15) (by simp)
  obtain ⟨a2, -⟩ := H (2 / 3) (by simp)
  obtain ⟨a3, -⟩ := H 1 (by simp)
  simp only [one_mul] at a3
  have k2 := (hK.hmul hD).hmul hD
  have f1 := hf0.hmul hD
  have d3 : Small (Inside T) 1 fun t h => y (t + h) - y t :=
    ((a3.weaken hD).weaken hD |>.add f1 |>.add ((k2.weaken hD).smul (1 / 2))).congr fun t h _ => by module
  have c1 : Small (Inside T) 2 fun t h => y (t + 8 / 15 * h) - y t - (8 / 15 : ℝ) • (y (t + h) - y t) :=
    ((a1.weaken hD).sub ((a3.weaken hD).smul (8 / 15)) |>.add (k2.smul ((8 / 15) ^ 2 / 2 - 8 / 15 / 2))).congr fun t h _ => by module
  have c2 : Small (Inside T) 2 fun t h => y (t + 2 / 3 * h) - y (t + 8 / 15 * h) - (2 / 15 : ℝ) • (y (t + h) - y t) :=
    ((a2.weaken hD).sub (a1.weaken hD) |>.sub ((a3.weaken hD).smul (2 / 15)) |>.add
      (k2.smul ((2 / 3) ^ 2 / 2 - (8 / 15) ^ 2 / 2 - 2 / 15 / 2))).congr fun t h _ => by module
  obtain ⟨C0, hC0, H0⟩ := d3
  obtain ⟨C1, hC1, H1⟩ := c1
  obtain ⟨C2, hC2, H2⟩ := c2
  refine ⟨C0 + C1 + C2, by positivity, fun t h hp => ⟨(H0 t h hp).trans ?_, (H1 t h hp).trans ?_, (H2 t h hp).trans ?_⟩⟩
  · have := hp.2.1
    rw [pow_one]
    gcongr
    linarith
  · have := hp.2.1
    gcongr
    linarith
  · have := hp.2.1
    gcongr
    linarith

set_option maxHeartbeats 800000 in
/-- The stages of a step: the errors and their increments. -/
theorem split_stages {R L C h m P : ℝ} (hC : 0 ≤ C) (hL : 0 ≤ L) (h0 : 0 ≤ h) (h1 : h ≤ 1) (hha : h * ‖A‖ ≤ 1)
    (Hlip : ∀ u w, ‖u‖ ≤ R + 1 → ‖w‖ ≤ R + 1 → ‖(F u + B u) - (F w + B w)‖ ≤ L * ‖u - w‖) {x x1 x2 x3 Y0 Y1 Y2 Y3 : E}
    (hm : m = 3 + 4 * L + 2 * C + 4 * ‖B‖ + 4 * (‖B‖ * C))
    (hP : P = ‖x - Y0‖ + h ^ 2) (hmP : m ^ 3 * P ≤ 1) (y0 : ‖Y0‖ ≤ R) (y1 : ‖Y1‖ ≤ R) (y2 : ‖Y2‖ ≤ R)
    (r0 : SplitStep A B F h (8 / 15) 1 0 x x x1) (r1 : SplitStep A B F h (2 / 15) (25 / 8) (-17 / 8) x x1 x2)
    (r2 : SplitStep A B F h (1 / 3) (9 / 4) (-5 / 4) x1 x2 x3)
    (τ0 : ‖subRes A (fun u => F u + B u) h (8 / 15) 1 0 Y0 Y0 Y1‖ ≤ C * h ^ 2)
    (τ1 : ‖subRes A (fun u => F u + B u) h (2 / 15) (25 / 8) (-17 / 8) Y0 Y1 Y2‖ ≤ C * h ^ 2)
    (τ2 : ‖subRes A (fun u => F u + B u) h (1 / 3) (9 / 4) (-5 / 4) Y1 Y2 Y3‖ ≤ C * h ^ 2)
    (c0 : ‖Y3 - Y0‖ ≤ C * h) (c1 : ‖Y1 - Y0 - (8 / 15 : ℝ) • (Y3 - Y0)‖ ≤ C * h ^ 2)
    (c2 : ‖Y2 - Y1 - (2 / 15 : ℝ) • (Y3 - Y0)‖ ≤ C * h ^ 2) :
    (‖x - Y0‖ ≤ m ^ 3 * P ∧ ‖x1 - Y1‖ ≤ m ^ 3 * P ∧ ‖x2 - Y2‖ ≤ m ^ 3 * P) ∧
      ‖x1 - Y1 - (x - Y0) + subRes A (fun u => F u + B u) h (8 / 15) 1 0 Y0 Y0 Y1 - 0‖ ≤ h * (2 * (‖A‖ + L) * (m ^ 3 * P)) ∧
      ‖x2 - Y2 - (x1 - Y1) + subRes A (fun u => F u + B u) h (2 / 15) (25 / 8) (-17 / 8) Y0 Y1 Y2 - (-17 / 60 * h) • B (x1 - x)‖ ≤ h * (2 * (‖A‖ + L) * (m ^ 3 * P)) ∧
      ‖x3 - Y3 - (x2 - Y2) + subRes A (fun u => F u + B u) h (1 / 3) (9 / 4) (-5 / 4) Y1 Y2 Y3 - (-5 / 12 * h) • B (x2 - x1)‖ ≤ h * (2 * (‖A‖ + L) * (m ^ 3 * P)) := by
  have hb := norm_nonneg B
  have hbC : 0 ≤ ‖B‖ * C := mul_nonneg hb hC
  have hm1 : 1 ≤ m := by rw [hm]; linarith
  have hP0 : 0 ≤ P := by rw [hP]; positivity
  have hPh : h ^ 2 ≤ P := by rw [hP]; linarith [norm_nonneg (x - Y0)]
  have m0 : P ≤ m * P := by nlinarith
  have m01 : m * P ≤ m ^ 2 * P := by nlinarith [mul_nonneg (by linarith : 0 ≤ m) hP0]
  have m12 : m ^ 2 * P ≤ m ^ 3 * P := by nlinarith [mul_nonneg (by positivity : 0 ≤ m ^ 2) hP0]
  have ball : ∀ u Y : E, ‖Y‖ ≤ R → ‖u - Y‖ ≤ 1 → ‖u‖ ≤ R + 1 := fun u Y hY hu => by
    have : u = (u - Y) + Y := by abel
    rw [this]
    exact (norm_add_le _ _).trans (by linarith)
  have q0 : ‖x - Y0‖ ≤ P := by rw [hP]; linarith [sq_nonneg h]
  have b0 := ball x _ y0 (by linarith)
  have l0 := Hlip _ _ b0 (by linarith : ‖Y0‖ ≤ R + 1)
  have hCh : C * h ^ 2 ≤ C * P := mul_le_mul_of_nonneg_left hPh hC
  have g0 := split_eq A B (by norm_num) r0
  have g1 := split_eq A B (by norm_num) r1
  have g2 := split_eq A B (by norm_num) r2
  have chord : ∀ (c : ℝ) (Y Y' : E), 0 ≤ c → c ≤ 1 → ‖Y' - Y - c • (Y3 - Y0)‖ ≤ C * h ^ 2 → ‖Y' - Y‖ ≤ 2 * C * h := fun c Y Y' hc0 hc1 k => by
    have e : Y' - Y = (Y' - Y - c • (Y3 - Y0)) + c • (Y3 - Y0) := by abel
    rw [e]
    refine (norm_add_le _ _).trans ?_
    rw [norm_smul, Real.norm_of_nonneg hc0]
    have k1 : c * ‖Y3 - Y0‖ ≤ 1 * (C * h) := mul_le_mul hc1 c0 (norm_nonneg _) zero_le_one
    have k2 : C * h ^ 2 ≤ C * h := mul_le_mul_of_nonneg_left (by nlinarith) hC
    linarith
  have pb : ∀ (c : ℝ) (u u' Y Y' : E) (M : ℝ), |c| ≤ 1 → ‖u - Y‖ ≤ M → ‖u' - Y'‖ ≤ M → ‖Y' - Y‖ ≤ 2 * C * h →
      ‖(c * h) • B (u' - u)‖ ≤ 2 * ‖B‖ * M + 2 * (‖B‖ * C) * P := fun c u u' Y Y' M hc hu hu' hY => by
    have e : u' - u = (u' - Y') - (u - Y) + (Y' - Y) := by abel
    have k1 : ‖u' - u‖ ≤ 2 * M + 2 * C * h := by
      rw [e]
      have := norm_add_le ((u' - Y') - (u - Y)) (Y' - Y)
      have := norm_sub_le (u' - Y') (u - Y)
      linarith
    have hM : 0 ≤ M := (norm_nonneg _).trans hu
    rw [norm_smul, norm_mul, Real.norm_eq_abs, Real.norm_of_nonneg h0]
    have k2 : ‖B (u' - u)‖ ≤ ‖B‖ * (2 * M + 2 * C * h) := (B.le_opNorm _).trans (mul_le_mul_of_nonneg_left k1 hb)
    have k3 : |c| * h * ‖B (u' - u)‖ ≤ h * (‖B‖ * (2 * M + 2 * C * h)) :=
      mul_le_mul (by nlinarith) k2 (norm_nonneg _) h0
    have k4 : h * (‖B‖ * (2 * M)) ≤ 1 * (‖B‖ * (2 * M)) := mul_le_mul_of_nonneg_right h1 (by positivity)
    have k5 : 2 * (‖B‖ * C) * h ^ 2 ≤ 2 * (‖B‖ * C) * P := mul_le_mul_of_nonneg_left hPh (by positivity)
    nlinarith
  have w0 := sub_bound_p A (F := fun u => F u + B u) h0 h1 hha (by norm_num) (by norm_num) (by norm_num) (by norm_num) hL g0 l0 l0 τ0
  have z0 : (8 / 15 * h * 0 : ℝ) • B (x - x) = 0 := by simp
  rw [z0, norm_zero] at w0
  have q1 : ‖x1 - Y1‖ ≤ m * P := by
    have t1 := mul_le_mul_of_nonneg_left q0 (by positivity : 0 ≤ 3 + 2 * L)
    have t2 := mul_le_mul_of_nonneg_left q0 (by positivity : 0 ≤ 2 * L)
    have : m * P = (3 + 2 * L) * P + 2 * L * P + 2 * (C * P) + 4 * ‖B‖ * P + 4 * (‖B‖ * C) * P := by rw [hm]; ring
    have t3 : 0 ≤ 4 * ‖B‖ * P := by positivity
    have t4 : 0 ≤ 4 * (‖B‖ * C) * P := by positivity
    linarith [w0.1]
  have b1 := ball x1 _ y1 (by linarith)
  have l1 := Hlip _ _ b1 (by linarith : ‖Y1‖ ≤ R + 1)
  have w1 := sub_bound_p A (F := fun u => F u + B u) h0 h1 hha (by norm_num) (by norm_num) (by norm_num [abs_of_pos]) (by norm_num [abs_of_neg]) hL g1 l1 l0 τ1
  have e1 : (2 / 15 * h * (-17 / 8) : ℝ) • B (x1 - x) = (-17 / 60 * h) • B (x1 - x) := by congr 1; ring
  rw [e1] at w1
  have p1 := pb (-17 / 60) x x1 Y0 Y1 (m * P) (by norm_num [abs_of_neg]) (q0.trans m0) q1 (chord _ _ _ (by norm_num) (by norm_num) c1)
  have q2 : ‖x2 - Y2‖ ≤ m ^ 2 * P := by
    have t1 := mul_le_mul_of_nonneg_left q1 (by positivity : 0 ≤ 3 + 2 * L)
    have t2 := mul_le_mul_of_nonneg_left (q0.trans m0) (by positivity : 0 ≤ 2 * L)
    have t3 := mul_le_mul_of_nonneg_left m0 hC
    have t4 := mul_le_mul_of_nonneg_left m0 (by positivity : 0 ≤ 4 * (‖B‖ * C))
    have : m ^ 2 * P = (3 + 2 * L) * (m * P) + 2 * L * (m * P) + 2 * (C * (m * P)) + 4 * ‖B‖ * (m * P) + 4 * (‖B‖ * C) * (m * P) := by
      rw [pow_two, mul_assoc]; nth_rewrite 1 [hm]; ring
    linarith [w1.1]
  have b2 := ball x2 _ y2 (by linarith)
  have l2 := Hlip _ _ b2 (by linarith : ‖Y2‖ ≤ R + 1)
  have w2 := sub_bound_p A (F := fun u => F u + B u) h0 h1 hha (by norm_num) (by norm_num) (by norm_num [abs_of_pos]) (by norm_num [abs_of_neg]) hL g2 l2 l1 τ2
  have e2 : (1 / 3 * h * (-5 / 4) : ℝ) • B (x2 - x1) = (-5 / 12 * h) • B (x2 - x1) := by congr 1; ring
  rw [e2] at w2
  have p2 := pb (-5 / 12) x1 x2 Y1 Y2 (m ^ 2 * P) (by norm_num [abs_of_neg]) (q1.trans m01) q2 (chord _ _ _ (by norm_num) (by norm_num) c2)
  have q3 : ‖x3 - Y3‖ ≤ m ^ 3 * P := by
    have t1 := mul_le_mul_of_nonneg_left q2 (by positivity : 0 ≤ 3 + 2 * L)
    have t2 := mul_le_mul_of_nonneg_left (q1.trans m01) (by positivity : 0 ≤ 2 * L)
    have t3 := mul_le_mul_of_nonneg_left (m0.trans m01) hC
    have t4 := mul_le_mul_of_nonneg_left (m0.trans m01) (by positivity : 0 ≤ 4 * (‖B‖ * C))
    have : m ^ 3 * P = (3 + 2 * L) * (m ^ 2 * P) + 2 * L * (m ^ 2 * P) + 2 * (C * (m ^ 2 * P)) + 4 * ‖B‖ * (m ^ 2 * P)
        + 4 * (‖B‖ * C) * (m ^ 2 * P) := by
      rw [pow_succ' m 2, mul_assoc]; nth_rewrite 1 [hm]; ring
    linarith [w2.1]
  have Q0 : ‖x - Y0‖ ≤ m ^ 3 * P := by linarith
  have Q1 : ‖x1 - Y1‖ ≤ m ^ 3 * P := by linarith
  have Q2 : ‖x2 - Y2‖ ≤ m ^ 3 * P := by linarith
  have bd : ∀ p q r s : ℝ, p ≤ m ^ 3 * P → q ≤ m ^ 3 * P → r ≤ m ^ 3 * P → s ≤ m ^ 3 * P →
      h * (‖A‖ * (p + q) + L * (r + s)) ≤ h * (2 * (‖A‖ + L) * (m ^ 3 * P)) := fun p q r s hp hq hr hs => by
    refine mul_le_mul_of_nonneg_left ?_ h0
    have := mul_le_mul_of_nonneg_left (add_le_add hp hq) (norm_nonneg A)
    have := mul_le_mul_of_nonneg_left (add_le_add hr hs) hL
    linarith
  have v0 := w0.2.trans (bd _ _ _ _ Q0 Q1 Q0 Q0)
  have v1 := w1.2.trans (bd _ _ _ _ Q1 Q2 Q1 Q0)
  have v2 := w2.2.trans (bd _ _ _ _ Q2 q3 Q2 Q1)
  exact ⟨⟨Q0, Q1, Q2⟩, v0, v1, v2⟩

/-- What a step of three substeps does to the error: the start values of `B` leave a defect of second order. -/
theorem split_step_error {R L C h m P : ℝ} (hC : 0 ≤ C) (hL : 0 ≤ L) (h0 : 0 ≤ h) (h1 : h ≤ 1) (hha : h * ‖A‖ ≤ 1)
    (Hlip : ∀ u w, ‖u‖ ≤ R + 1 → ‖w‖ ≤ R + 1 → ‖(F u + B u) - (F w + B w)‖ ≤ L * ‖u - w‖) {x x1 x2 x3 Y0 Y1 Y2 Y3 : E}
    (hm : m = 3 + 4 * L + 2 * C + 4 * ‖B‖ + 4 * (‖B‖ * C))
    (hP : P = ‖x - Y0‖ + h ^ 2) (hmP : m ^ 3 * P ≤ 1) (y0 : ‖Y0‖ ≤ R) (y1 : ‖Y1‖ ≤ R) (y2 : ‖Y2‖ ≤ R)
    (r0 : SplitStep A B F h (8 / 15) 1 0 x x x1) (r1 : SplitStep A B F h (2 / 15) (25 / 8) (-17 / 8) x x1 x2)
    (r2 : SplitStep A B F h (1 / 3) (9 / 4) (-5 / 4) x1 x2 x3)
    (τ0 : ‖subRes A (fun u => F u + B u) h (8 / 15) 1 0 Y0 Y0 Y1‖ ≤ C * h ^ 2)
    (τ1 : ‖subRes A (fun u => F u + B u) h (2 / 15) (25 / 8) (-17 / 8) Y0 Y1 Y2‖ ≤ C * h ^ 2)
    (τ2 : ‖subRes A (fun u => F u + B u) h (1 / 3) (9 / 4) (-5 / 4) Y1 Y2 Y3‖ ≤ C * h ^ 2)
    (τs : ‖subRes A (fun u => F u + B u) h (8 / 15) 1 0 Y0 Y0 Y1 + subRes A (fun u => F u + B u) h (2 / 15) (25 / 8) (-17 / 8) Y0 Y1 Y2
      + subRes A (fun u => F u + B u) h (1 / 3) (9 / 4) (-5 / 4) Y1 Y2 Y3‖ ≤ C * h ^ 3)
    (c0 : ‖Y3 - Y0‖ ≤ C * h) (c1 : ‖Y1 - Y0 - (8 / 15 : ℝ) • (Y3 - Y0)‖ ≤ C * h ^ 2)
    (c2 : ‖Y2 - Y1 - (2 / 15 : ℝ) • (Y3 - Y0)‖ ≤ C * h ^ 2) :
    ‖x3 - Y3 - (x - Y0) + (31 / 150 * h) • B (Y3 - Y0)‖ ≤
      h * (6 * m ^ 3 * (‖A‖ + L) + ‖B‖ * (2 * m ^ 3 + C)) * ‖x - Y0‖ + (6 * m ^ 3 * (‖A‖ + L) + ‖B‖ * (2 * m ^ 3 + C) + C) * h ^ 3 := by
  have hb := norm_nonneg B
  have hm0 : 0 ≤ m := by rw [hm]; positivity
  have hP0 : 0 ≤ P := by rw [hP]; positivity
  have hPh : h ^ 2 ≤ P := by rw [hP]; linarith [norm_nonneg (x - Y0)]
  have hCh : C * h ^ 2 ≤ C * P := mul_le_mul_of_nonneg_left hPh hC
  obtain ⟨⟨Q0, Q1, Q2⟩, v0, v1, v2⟩ := split_stages A B hC hL h0 h1 hha Hlip hm hP hmP y0 y1 y2 r0 r1 r2 τ0 τ1 τ2 c0 c1 c2
  have dev : ∀ (c : ℝ) (u u' Y Y' : E), ‖u - Y‖ ≤ m ^ 3 * P → ‖u' - Y'‖ ≤ m ^ 3 * P → ‖Y' - Y - c • (Y3 - Y0)‖ ≤ C * h ^ 2 →
      ‖B (u' - u - c • (Y3 - Y0))‖ ≤ ‖B‖ * ((2 * m ^ 3 + C) * P) := fun c u u' Y Y' hu hu' hY => by
    refine (B.le_opNorm _).trans (mul_le_mul_of_nonneg_left ?_ hb)
    have e : u' - u - c • (Y3 - Y0) = (u' - Y') - (u - Y) + (Y' - Y - c • (Y3 - Y0)) := by abel
    rw [e]
    have := norm_add_le ((u' - Y') - (u - Y)) (Y' - Y - c • (Y3 - Y0))
    have := norm_sub_le (u' - Y') (u - Y)
    linarith
  have d1 := dev (8 / 15) x x1 Y0 Y1 Q0 Q1 c1
  have d2 := dev (2 / 15) x1 x2 Y1 Y2 Q1 Q2 c2
  set σ0 := subRes A (fun u => F u + B u) h (8 / 15) 1 0 Y0 Y0 Y1
  set σ1 := subRes A (fun u => F u + B u) h (2 / 15) (25 / 8) (-17 / 8) Y0 Y1 Y2
  set σ2 := subRes A (fun u => F u + B u) h (1 / 3) (9 / 4) (-5 / 4) Y1 Y2 Y3
  have tot : x3 - Y3 - (x - Y0) + (31 / 150 * h) • B (Y3 - Y0) =
      ((x1 - Y1 - (x - Y0) + σ0 - 0) + (x2 - Y2 - (x1 - Y1) + σ1 - (-17 / 60 * h) • B (x1 - x))
        + (x3 - Y3 - (x2 - Y2) + σ2 - (-5 / 12 * h) • B (x2 - x1))) - (σ0 + σ1 + σ2)
      - (17 / 60 * h) • B (x1 - x - (8 / 15 : ℝ) • (Y3 - Y0)) - (5 / 12 * h) • B (x2 - x1 - (2 / 15 : ℝ) • (Y3 - Y0)) := by
    simp only [map_sub, map_smul]
    module
  rw [tot]
  refine (norm_sub_le _ _).trans ?_
  have u0 := norm_sub_le (((x1 - Y1 - (x - Y0) + σ0 - 0) + (x2 - Y2 - (x1 - Y1) + σ1 - (-17 / 60 * h) • B (x1 - x))
        + (x3 - Y3 - (x2 - Y2) + σ2 - (-5 / 12 * h) • B (x2 - x1))) - (σ0 + σ1 + σ2)) ((17 / 60 * h) • B (x1 - x - (8 / 15 : ℝ) • (Y3 - Y0)))
  have u1 := norm_sub_le ((x1 - Y1 - (x - Y0) + σ0 - 0) + (x2 - Y2 - (x1 - Y1) + σ1 - (-17 / 60 * h) • B (x1 - x))
        + (x3 - Y3 - (x2 - Y2) + σ2 - (-5 / 12 * h) • B (x2 - x1))) (σ0 + σ1 + σ2)
  have u2 := norm_add_le ((x1 - Y1 - (x - Y0) + σ0 - 0) + (x2 - Y2 - (x1 - Y1) + σ1 - (-17 / 60 * h) • B (x1 - x)))
        (x3 - Y3 - (x2 - Y2) + σ2 - (-5 / 12 * h) • B (x2 - x1))
  have u3 := norm_add_le (x1 - Y1 - (x - Y0) + σ0 - 0) (x2 - Y2 - (x1 - Y1) + σ1 - (-17 / 60 * h) • B (x1 - x))
  have s1 : ‖(17 / 60 * h) • B (x1 - x - (8 / 15 : ℝ) • (Y3 - Y0))‖ ≤ 17 / 60 * h * (‖B‖ * ((2 * m ^ 3 + C) * P)) := by
    rw [norm_smul, Real.norm_of_nonneg (by positivity)]
    exact mul_le_mul_of_nonneg_left d1 (by positivity)
  have s2 : ‖(5 / 12 * h) • B (x2 - x1 - (2 / 15 : ℝ) • (Y3 - Y0))‖ ≤ 5 / 12 * h * (‖B‖ * ((2 * m ^ 3 + C) * P)) := by
    rw [norm_smul, Real.norm_of_nonneg (by positivity)]
    exact mul_le_mul_of_nonneg_left d2 (by positivity)
  have id : 3 * (h * (2 * (‖A‖ + L) * (m ^ 3 * P))) + C * h ^ 3 + h * (‖B‖ * ((2 * m ^ 3 + C) * P)) =
      h * (6 * m ^ 3 * (‖A‖ + L) + ‖B‖ * (2 * m ^ 3 + C)) * ‖x - Y0‖ + (6 * m ^ 3 * (‖A‖ + L) + ‖B‖ * (2 * m ^ 3 + C) + C) * h ^ 3 := by
    rw [hP]; ring
  have nn : 0 ≤ h * (‖B‖ * ((2 * m ^ 3 + C) * P)) := by positivity
  linarith

omit [NormedSpace ℝ E] in
/-- One step errors add up. -/
theorem one_step_global {St : ℝ → E → E → Prop} {Λ D μ H1 : ℝ} (hΛ : 0 ≤ Λ) (hD : 0 ≤ D) (hμ : 0 ≤ μ) (hH1 : 0 < H1) (q : ℕ) (hT : 0 ≤ T)
    (Hs : ∀ t h x x', Inside T t h → h ≤ H1 → μ * (‖x - y t‖ + h ^ 2) ≤ 1 → St h x x' →
      ‖x' - y (t + h)‖ ≤ (1 + h * Λ) * ‖x - y t‖ + D * h ^ (q + 1 + 1)) :
    ∃ C H0 : ℝ, 0 < H0 ∧ ∀ h, 0 ≤ h → h ≤ H0 → ∀ x : ℕ → E, x 0 = y 0 → (∀ n, St h (x n) (x (n + 1))) →
      ∀ n : ℕ, n * h ≤ T → ‖x n - y (n * h)‖ ≤ C * h ^ (q + 1) := by
  set K := D * T * Real.exp (Λ * T) with hK
  have hK0 : 0 ≤ K := by positivity
  set Z := μ * (K + 1) with hZ
  have hZ0 : 0 ≤ Z := by positivity
  refine ⟨K, min (min 1 H1) (1 / (Z + 1)), lt_min (lt_min one_pos hH1) (by positivity), fun h h0 hh x hx0 hx => ?_⟩
  have h1 : h ≤ 1 := hh.trans ((min_le_left _ _).trans (min_le_left _ _))
  have hh1 : h ≤ H1 := hh.trans ((min_le_left _ _).trans (min_le_right _ _))
  have hhZ : h * Z ≤ 1 := by
    have := hh.trans (min_le_right _ _)
    rw [le_div_iff₀ (by positivity)] at this
    nlinarith
  have hh2 : h ^ 2 ≤ h := by nlinarith
  have hhq : h ^ (q + 1) ≤ h := by
    rw [pow_succ]
    have : h ^ q ≤ 1 := pow_le_one₀ h0 h1
    nlinarith
  have hbK : ∀ n : ℕ, n * h ≤ T → D * (n * h) * h ^ (q + 1) * Real.exp (Λ * (n * h)) ≤ K * h ^ (q + 1) := by
    intro n hn
    calc _ ≤ D * T * h ^ (q + 1) * Real.exp (Λ * T) := by gcongr
      _ = K * h ^ (q + 1) := by rw [hK]; ring
  have hmain : ∀ n : ℕ, n * h ≤ T → ‖x n - y (n * h)‖ ≤ D * (n * h) * h ^ (q + 1) * Real.exp (Λ * (n * h)) := by
    intro n
    induction n with
    | zero => intro _; rw [hx0, Nat.cast_zero, zero_mul, sub_self, norm_zero, mul_zero, zero_mul, zero_mul]
    | succ n ih =>
      intro h2
      have hn0 : (0 : ℝ) ≤ n := Nat.cast_nonneg n
      have hn : (n : ℝ) * h ≤ T := by push_cast at h2; linarith only [h2, h0]
      have e0 := ih hn
      have hp : Inside T (n * h) h := ⟨mul_nonneg hn0 h0, h0, h1, by push_cast at h2; linarith only [h2]⟩
      have ts : ((n + 1 : ℕ) : ℝ) * h = n * h + h := by push_cast; ring
      rw [ts]
      have hmP : μ * (‖x n - y (n * h)‖ + h ^ 2) ≤ 1 := by
        have : ‖x n - y (n * h)‖ + h ^ 2 ≤ (K + 1) * h := by
          have := mul_le_mul_of_nonneg_left hhq hK0
          linarith [e0.trans (hbK n hn)]
        calc μ * (‖x n - y (n * h)‖ + h ^ 2) ≤ μ * ((K + 1) * h) := mul_le_mul_of_nonneg_left this hμ
          _ = h * Z := by rw [hZ]; ring
          _ ≤ 1 := hhZ
      exact (Hs _ _ _ _ hp hh1 hmP (hx n)).trans (gronwall_step hD hΛ (by positivity) h0 le_rfl e0 (norm_nonneg _))
  exact fun n hn => (hmain n hn).trans (hbK n hn)

/-- The defect of one step. -/
theorem split_local (hG : QuadField fun u => F u + B u) (hy : SolvesOn (fun u => A u + (F u + B u)) T y) :
    ∃ Λ D μ H1, 0 ≤ Λ ∧ 0 ≤ D ∧ 0 ≤ μ ∧ 0 < H1 ∧ ∀ t h x x', Inside T t h → h ≤ H1 → μ * (‖x - y t‖ + h ^ 2) ≤ 1 → SplitRK3 A B F h x x' →
      ‖x' - y (t + h) - (x - y t) + (31 / 150 * h) • B (y (t + h) - y t)‖ ≤ h * Λ * ‖x - y t‖ + D * h ^ 3 ∧ ‖y (t + h) - y t‖ ≤ D * h := by
  obtain ⟨R, hR, hyR⟩ := hy.bound
  obtain ⟨C1, hC1, Hloc⟩ := rk3_local A hG hy
  obtain ⟨C2, hC2, Hch⟩ := chord_local (quad_total A hG) hy
  obtain ⟨_, L, _, hL, _, Hlip⟩ := hG.bounds (R + 1)
  have hC : 0 ≤ C1 + C2 := by positivity
  set C := C1 + C2
  set m := 3 + 4 * L + 2 * C + 4 * ‖B‖ + 4 * (‖B‖ * C) with hm
  have hm0 : 0 ≤ m := by positivity
  have ha := norm_nonneg A
  refine ⟨6 * m ^ 3 * (‖A‖ + L) + ‖B‖ * (2 * m ^ 3 + C), 6 * m ^ 3 * (‖A‖ + L) + ‖B‖ * (2 * m ^ 3 + C) + C, m ^ 3, 1 / (‖A‖ + 1),
    by positivity, by positivity, by positivity, by positivity, fun t h x x' hp hh hmP hs => ?_⟩
  obtain ⟨x1, x2, r0, r1, r2⟩ := hs
  obtain ⟨t0, h0, h1, ht⟩ := hp
  have hha : h * ‖A‖ ≤ 1 := by
    rw [le_div_iff₀ (by positivity)] at hh
    nlinarith
  have up2 : ∀ {D v : ℝ}, D ≤ C → v ≤ D * h ^ 2 → v ≤ C * h ^ 2 := fun hd hv => hv.trans (mul_le_mul_of_nonneg_right hd (by positivity))
  obtain ⟨τ0, τ1, τ2, τs⟩ := Hloc t h ⟨t0, h0, h1, ht⟩
  obtain ⟨c0, c1, c2⟩ := Hch t h ⟨t0, h0, h1, ht⟩
  have l1 : C1 ≤ C := by simp only [C]; linarith
  have l2 : C2 ≤ C := by simp only [C]; linarith
  have c0' : ‖y (t + h) - y t‖ ≤ C * h := c0.trans (mul_le_mul_of_nonneg_right l2 h0)
  refine ⟨split_step_error A B hC hL h0 h1 hha Hlip hm rfl hmP (hyR _ ⟨t0, by linarith⟩) (hyR _ ⟨by linarith, by linarith⟩)
    (hyR _ ⟨by linarith, by linarith⟩) r0 r1 r2 (up2 l1 τ0) (up2 l1 τ1) (up2 l1 τ2)
    (τs.trans (mul_le_mul_of_nonneg_right l1 (by positivity))) c0' (up2 l2 c1) (up2 l2 c2), c0'.trans (mul_le_mul_of_nonneg_right ?_ h0)⟩
  have : 0 ≤ 6 * m ^ 3 * (‖A‖ + L) + ‖B‖ * (2 * m ^ 3 + C) := by positivity
  linarith

/-- First order in general. -/
theorem split_first (hG : QuadField fun u => F u + B u) (hT : 0 ≤ T) (hy : SolvesOn (fun u => A u + (F u + B u)) T y) :
    ∃ C H0 : ℝ, 0 < H0 ∧ ∀ h, 0 ≤ h → h ≤ H0 → ∀ x : ℕ → E, x 0 = y 0 → (∀ n, SplitRK3 A B F h (x n) (x (n + 1))) →
      ∀ n : ℕ, n * h ≤ T → ‖x n - y (n * h)‖ ≤ C * h := by
  obtain ⟨Λ, D, μ, H1, hΛ, hD, hμ, hH1, Hs⟩ := split_local A B hG hy
  have hb := norm_nonneg B
  obtain ⟨C, H0, hH0, H⟩ := one_step_global (St := SplitRK3 A B F) (D := D + ‖B‖ * D) hΛ (by positivity) hμ hH1 0 hT (fun t h x x' hp hh hm hs => by
    obtain ⟨k1, k2⟩ := Hs t h x x' hp hh hm hs
    obtain ⟨-, h0, h1, -⟩ := hp
    have e : x' - y (t + h) = (x - y t) + ((x' - y (t + h) - (x - y t) + (31 / 150 * h) • B (y (t + h) - y t))
      - (31 / 150 * h) • B (y (t + h) - y t)) := by abel
    have k3 : ‖(31 / 150 * h) • B (y (t + h) - y t)‖ ≤ ‖B‖ * D * h ^ 2 := by
      rw [norm_smul, Real.norm_of_nonneg (by positivity)]
      have k4 : ‖B (y (t + h) - y t)‖ ≤ ‖B‖ * (D * h) := (B.le_opNorm _).trans (mul_le_mul_of_nonneg_left k2 hb)
      have k5 : 31 / 150 * h * ‖B (y (t + h) - y t)‖ ≤ h * (‖B‖ * (D * h)) := mul_le_mul (by linarith) k4 (norm_nonneg _) h0
      nlinarith
    have k6 : D * h ^ 3 ≤ D * h ^ 2 := mul_le_mul_of_nonneg_left (by nlinarith [sq_nonneg h]) hD
    rw [e]
    refine (norm_add_le _ _).trans ?_
    have k7 := norm_sub_le (x' - y (t + h) - (x - y t) + (31 / 150 * h) • B (y (t + h) - y t)) ((31 / 150 * h) • B (y (t + h) - y t))
    rw [zero_add, one_add_one_eq_two]
    nlinarith)
  exact ⟨C, H0, hH0, fun h h0 hh x hx0 hx n hn => by simpa using H h h0 hh x hx0 hx n hn⟩

/-- Second order as long as `B` does not change along the solution. -/
theorem split_second (hG : QuadField fun u => F u + B u) (hT : 0 ≤ T) (hy : SolvesOn (fun u => A u + (F u + B u)) T y)
    (hB : ∀ t ∈ Set.Icc 0 T, B (y t) = B (y 0)) :
    ∃ C H0 : ℝ, 0 < H0 ∧ ∀ h, 0 ≤ h → h ≤ H0 → ∀ x : ℕ → E, x 0 = y 0 → (∀ n, SplitRK3 A B F h (x n) (x (n + 1))) →
      ∀ n : ℕ, n * h ≤ T → ‖x n - y (n * h)‖ ≤ C * h ^ 2 := by
  obtain ⟨Λ, D, μ, H1, hΛ, hD, hμ, hH1, Hs⟩ := split_local A B hG hy
  refine one_step_global (St := SplitRK3 A B F) (D := D) hΛ (by positivity) hμ hH1 1 hT (fun t h x x' hp hh hm hs => ?_)
  obtain ⟨k1, -⟩ := Hs t h x x' hp hh hm hs
  obtain ⟨t0, h0, h1, ht⟩ := hp
  rw [map_sub, hB _ ⟨by linarith, ht⟩, hB t ⟨t0, by linarith⟩, sub_self, smul_zero, add_zero] at k1
  have e : x' - y (t + h) = (x - y t) + (x' - y (t + h) - (x - y t)) := by abel
  rw [e]
  refine (norm_add_le _ _).trans ?_
  norm_num
  linarith

/-- Conversely second order is only had if `B` does not change along the solution. -/
theorem split_steady (hG : QuadField fun u => F u + B u) (hy : SolvesOn (fun u => A u + (F u + B u)) T y)
    {C H0 : ℝ} (hH0 : 0 < H0)
    (H : ∀ h, 0 < h → h ≤ H0 → ∃ x : ℕ → E, x 0 = y 0 ∧ (∀ n : ℕ, (n + 1 : ℕ) * h ≤ T → SplitRK3 A B F h (x n) (x (n + 1))) ∧
      ∀ n : ℕ, n * h ≤ T → ‖x n - y (n * h)‖ ≤ C * h ^ 2) {s : ℝ} (hs : s ∈ Set.Icc 0 T) : B (y s) = B (y 0) := by
  obtain ⟨Λ, D, μ, H1, hΛ, hD, hμ, hH1, Hs⟩ := split_local A B hG hy
  obtain ⟨s0, sT⟩ := hs
  have hC : 0 ≤ |C| := abs_nonneg C
  -- a bound for every small enough fraction of `s`
  have key : ∀ h, 0 < h → h ≤ H0 → h ≤ H1 → h ≤ 1 → μ * ((|C| + 1) * h) ≤ 1 → ∀ N : ℕ, N * h = s →
      31 / 150 * ‖B (y s) - B (y 0)‖ ≤ (s * (Λ * |C| + D) + |C|) * h := by
    intro h h0 hh0 hh1 h1 hμh N hN
    obtain ⟨x, hx0, hx, herr⟩ := H h h0 hh0
    have tel : ∀ n : ℕ, n ≤ N → ‖x n - y (n * h) + (31 / 150 * h) • B (y (n * h) - y 0)‖ ≤ n * ((Λ * |C| + D) * h ^ 3) := by
      intro n
      induction n with
      | zero => intro _; simp [hx0]
      | succ n ih =>
        intro hn
        have hnN : ((n + 1 : ℕ) : ℝ) ≤ N := by exact_mod_cast hn
        have hle : ((n + 1 : ℕ) : ℝ) * h ≤ T := (mul_le_mul_of_nonneg_right hnN h0.le).trans (by rw [hN]; exact sT)
        have ts : ((n + 1 : ℕ) : ℝ) * h = n * h + h := by push_cast; ring
        have hn0 : (0 : ℝ) ≤ n := Nat.cast_nonneg n
        have hnT : (n : ℝ) * h ≤ T := by rw [ts] at hle; linarith
        have e0 : ‖x n - y (n * h)‖ ≤ |C| * h ^ 2 := (herr n hnT).trans (mul_le_mul_of_nonneg_right (le_abs_self C) (by positivity))
        have hp : Inside T (n * h) h := ⟨by positivity, h0.le, h1, by rw [← ts]; exact hle⟩
        have hm : μ * (‖x n - y (n * h)‖ + h ^ 2) ≤ 1 := by
          refine le_trans (mul_le_mul_of_nonneg_left ?_ hμ) hμh
          have hh2 : h ^ 2 ≤ h := by nlinarith
          have := mul_le_mul_of_nonneg_left hh2 hC
          linarith
        obtain ⟨k1, -⟩ := Hs _ h _ _ hp hh1 hm (hx n hle)
        rw [ts]
        have e : x (n + 1) - y (n * h + h) + (31 / 150 * h) • B (y (n * h + h) - y 0) =
            (x n - y (n * h) + (31 / 150 * h) • B (y (n * h) - y 0))
            + (x (n + 1) - y (n * h + h) - (x n - y (n * h)) + (31 / 150 * h) • B (y (n * h + h) - y (n * h))) := by
          simp only [map_sub]
          module
        rw [e]
        refine (norm_add_le _ _).trans ?_
        have k2 : h * Λ * ‖x n - y (n * h)‖ ≤ h * Λ * (|C| * h ^ 2) := mul_le_mul_of_nonneg_left e0 (by positivity)
        have := ih (by omega)
        push_cast
        nlinarith
    have k := tel N le_rfl
    have e0 : ‖x N - y (N * h)‖ ≤ |C| * h ^ 2 :=
      (herr N (by rw [hN]; exact sT)).trans (mul_le_mul_of_nonneg_right (le_abs_self C) (by positivity))
    rw [hN] at k e0
    have k3 : ‖(31 / 150 * h) • B (y s - y 0)‖ ≤ N * ((Λ * |C| + D) * h ^ 3) + |C| * h ^ 2 := by
      have e : (31 / 150 * h) • B (y s - y 0) = (x N - y s + (31 / 150 * h) • B (y s - y 0)) - (x N - y s) := by abel
      rw [e]
      exact (norm_sub_le _ _).trans (add_le_add k e0)
    rw [norm_smul, Real.norm_of_nonneg (by positivity), map_sub] at k3
    have k4 : (N : ℝ) * ((Λ * |C| + D) * h ^ 3) = s * (Λ * |C| + D) * h ^ 2 := by rw [← hN]; ring
    rw [k4] at k3
    have k5 : h * (31 / 150 * ‖B (y s) - B (y 0)‖) ≤ h * ((s * (Λ * |C| + D) + |C|) * h) := by nlinarith
    exact le_of_mul_le_mul_left k5 h0
  rcases eq_or_lt_of_le s0 with rfl | s0
  · rfl
  · by_contra hne
    have hpos : 0 < ‖B (y s) - B (y 0)‖ := norm_pos_iff.2 (sub_ne_zero.2 hne)
    have hQ0 : 0 ≤ s * (Λ * |C| + D) + |C| := by positivity
    set Q := s * (Λ * |C| + D) + |C|
    set ε := min (min H0 H1) (min (min 1 (1 / (μ * (|C| + 1) + 1))) (31 / 150 * ‖B (y s) - B (y 0)‖ / (Q + 1) / 2)) with hε
    have hε0 : 0 < ε := by
      refine lt_min (lt_min hH0 hH1) (lt_min (lt_min one_pos (by positivity)) (by positivity))
    obtain ⟨N, hN⟩ := exists_nat_gt (s / ε)
    have hN0 : (0 : ℝ) < N := lt_trans (by positivity) hN
    have hh : s / N < ε := by
      rw [div_lt_iff₀ hε0] at hN
      rw [div_lt_iff₀ hN0]
      linarith
    have h0 : 0 < s / N := by positivity
    have a1 : ε ≤ H0 := (min_le_left _ _).trans (min_le_left _ _)
    have a2 : ε ≤ H1 := (min_le_left _ _).trans (min_le_right _ _)
    have a3 : ε ≤ 1 := (min_le_right _ _).trans ((min_le_left _ _).trans (min_le_left _ _))
    have a4 : ε ≤ 1 / (μ * (|C| + 1) + 1) := (min_le_right _ _).trans ((min_le_left _ _).trans (min_le_right _ _))
    have a5 : ε ≤ 31 / 150 * ‖B (y s) - B (y 0)‖ / (Q + 1) / 2 := (min_le_right _ _).trans (min_le_right _ _)
    have b4 : μ * ((|C| + 1) * (s / N)) ≤ 1 := by
      have := hh.le.trans a4
      rw [le_div_iff₀ (by positivity)] at this
      have := mul_nonneg hμ (by positivity : 0 ≤ |C| + 1)
      nlinarith
    have k := key (s / N) h0 (hh.le.trans a1) (hh.le.trans a2) (hh.le.trans a3) b4 N (by field_simp)
    have b5 := hh.le.trans a5
    rw [div_div, le_div_iff₀ (by positivity)] at b5
    nlinarith

end SpectralDNS

import Mathlib.Analysis.SpecialFunctions.Exp
import Mathlib.Analysis.Calculus.Deriv.Shift
import Verif.Spec.ODE
import Verif.Lemmas.RKLocal
import Verif.Lemmas.Integrators

/-!
# Convergence of explicit methods for quadratic right-hand sides
-/

namespace SpectralDNS

open Finset Spec

variable {E : Type*} [NormedAddCommGroup E] [NormedSpace ℝ E]

/-- `f` is a polynomial of degree at most two. -/
def QuadField (f : E → E) : Prop := ∃ (c : E) (A : E →L[ℝ] E) (Q : E →L[ℝ] E →L[ℝ] E), ∀ u, f u = c + A u + Q u u

theorem QuadField.bounds {f : E → E} (hf : QuadField f) (R : ℝ) :
    ∃ M L : ℝ, 0 ≤ M ∧ 0 ≤ L ∧ (∀ u, ‖u‖ ≤ R → ‖f u‖ ≤ M) ∧ ∀ u w, ‖u‖ ≤ R → ‖w‖ ≤ R → ‖f u - f w‖ ≤ L * ‖u - w‖ := by
  obtain ⟨c, A, Q, hf⟩ := hf
  have hQ := norm_nonneg Q
  have hA := norm_nonneg A
  refine ⟨‖c‖ + ‖A‖ * |R| + ‖Q‖ * |R| * |R|, ‖A‖ + 2 * (‖Q‖ * |R|), by positivity, by positivity, fun u hu => ?_, fun u w hu hw => ?_⟩
  · have hu := hu.trans (le_abs_self R)
    rw [hf]
    refine (norm_add_le _ _).trans (add_le_add ((norm_add_le _ _).trans (add_le_add_right ?_ _)) ?_)
    · exact (A.le_opNorm u).trans (mul_le_mul_of_nonneg_left hu (norm_nonneg _))
    · exact (Q.le_opNorm₂ u u).trans (mul_le_mul (mul_le_mul_of_nonneg_left hu hQ) hu (norm_nonneg _) (by positivity))
  · have hu := hu.trans (le_abs_self R)
    have hw := hw.trans (le_abs_self R)
    have e : f u - f w = A (u - w) + (Q (u - w) u + Q w (u - w)) := by
      rw [hf, hf]; simp only [map_sub, sub_apply]; abel
    rw [e]
    have h1 := A.le_opNorm (u - w)
    have h2 : ‖Q (u - w) u‖ ≤ ‖Q‖ * ‖u - w‖ * |R| :=
      (Q.le_opNorm₂ _ _).trans (mul_le_mul_of_nonneg_left hu (by positivity))
    have h3 : ‖Q w (u - w)‖ ≤ ‖Q‖ * |R| * ‖u - w‖ :=
      (Q.le_opNorm₂ _ _).trans (mul_le_mul_of_nonneg_right (mul_le_mul_of_nonneg_left hw hQ) (norm_nonneg _))
    have := (norm_add_le (A (u - w)) (Q (u - w) u + Q w (u - w))).trans (add_le_add_right (norm_add_le _ _) _)
    nlinarith

/-- Stage derivatives are bounded and Lipschitz on balls. -/
theorem stages_bounds {f : E → E} (hf : QuadField f) (a : ℕ → ℕ → ℝ) (R : ℝ) (i : ℕ) :
    ∃ M L : ℝ, 0 ≤ M ∧ 0 ≤ L ∧ ∀ j < i, ∀ h : ℝ, 0 ≤ h → h ≤ 1 → (∀ u, ‖u‖ ≤ R → ‖stages a f h u j‖ ≤ M) ∧
      ∀ u w, ‖u‖ ≤ R → ‖w‖ ≤ R → ‖stages a f h u j - stages a f h w j‖ ≤ L * ‖u - w‖ := by
  induction i with
  | zero => exact ⟨0, 0, le_refl _, le_refl _, fun j hj => absurd hj (by omega)⟩
  | succ i ih =>
    obtain ⟨M, L, hM, hL, H⟩ := ih
    set S := ∑ j ∈ range i, |a i j| with hS
    have hS0 : 0 ≤ S := sum_nonneg fun j _ => abs_nonneg _
    obtain ⟨M', L', hM', hL', Hb, Hl⟩ := hf.bounds (R + S * M)
    refine ⟨max M M', max L (L' * (1 + S * L)), le_max_of_le_left hM, le_max_of_le_left hL, fun j hj h h0 h1 => ?_⟩
    rcases Nat.lt_succ_iff_lt_or_eq.1 hj with hj | rfl
    · obtain ⟨h2, h3⟩ := H j hj h h0 h1
      exact ⟨fun u hu => (h2 u hu).trans (le_max_left _ _), fun u w hu hw => (h3 u w hu hw).trans
        (mul_le_mul_of_nonneg_right (le_max_left _ _) (norm_nonneg _))⟩
    · have hc : ∀ l ∈ range j, ‖h * a j l‖ ≤ |a j l| := fun l _ => by
        rw [norm_mul, Real.norm_of_nonneg h0, Real.norm_eq_abs]
        exact mul_le_of_le_one_left (abs_nonneg _) h1
      have harg : ∀ u, ‖u‖ ≤ R → ‖u + ∑ l ∈ range j, (h * a j l) • stages a f h u l‖ ≤ R + S * M := by
        intro u hu
        refine (norm_add_le _ _).trans (add_le_add hu ((norm_sum_le _ _).trans ?_))
        rw [hS, sum_mul]
        refine sum_le_sum fun l hl => ?_
        rw [norm_smul]
        exact mul_le_mul (hc l hl) ((H l (mem_range.1 hl) h h0 h1).1 u hu) (norm_nonneg _) (abs_nonneg _)
      refine ⟨fun u hu => ?_, fun u w hu hw => ?_⟩
      · rw [stages_eq]; exact (Hb _ (harg u hu)).trans (le_max_right _ _)
      · rw [stages_eq, stages_eq a f h w]
        refine (Hl _ _ (harg u hu) (harg w hw)).trans ?_
        have e : (u + ∑ l ∈ range j, (h * a j l) • stages a f h u l) - (w + ∑ l ∈ range j, (h * a j l) • stages a f h w l) =
            (u - w) + ∑ l ∈ range j, (h * a j l) • (stages a f h u l - stages a f h w l) := by
          simp only [smul_sub, sum_sub_distrib]; abel
        have h4 : ‖(u - w) + ∑ l ∈ range j, (h * a j l) • (stages a f h u l - stages a f h w l)‖ ≤ (1 + S * L) * ‖u - w‖ := by
          refine (norm_add_le _ _).trans ?_
          rw [add_mul, one_mul]
          refine add_le_add_right ((norm_sum_le _ _).trans ?_) _
          rw [mul_assoc, hS, sum_mul]
          refine sum_le_sum fun l hl => ?_
          rw [norm_smul]
          exact mul_le_mul (hc l hl) ((H l (mem_range.1 hl) h h0 h1).2 u w hu hw) (norm_nonneg _) (abs_nonneg _)
        rw [e]
        calc _ ≤ L' * ((1 + S * L) * ‖u - w‖) := mul_le_mul_of_nonneg_left h4 hL'
          _ = L' * (1 + S * L) * ‖u - w‖ := by ring
          _ ≤ _ := mul_le_mul_of_nonneg_right (le_max_right _ _) (norm_nonneg _)

/-- One step is Lipschitz with constant `1 + O(h)` on balls. -/
theorem rkNew_lipschitz {f : E → E} (hf : QuadField f) (s : ℕ) (a : ℕ → ℕ → ℝ) (b : ℕ → ℝ) (R : ℝ) :
    ∃ L : ℝ, 0 ≤ L ∧ ∀ h : ℝ, 0 ≤ h → h ≤ 1 → ∀ u w, ‖u‖ ≤ R → ‖w‖ ≤ R →
      ‖Spec.rkNew s a b f h u - Spec.rkNew s a b f h w‖ ≤ (1 + h * L) * ‖u - w‖ := by
  obtain ⟨M, L, hM, hL, H⟩ := stages_bounds hf a R s
  set S := ∑ j ∈ range s, |b j| with hS
  have hS0 : 0 ≤ S := sum_nonneg fun j _ => abs_nonneg _
  refine ⟨S * L, by positivity, fun h h0 h1 u w hu hw => ?_⟩
  have e : Spec.rkNew s a b f h u - Spec.rkNew s a b f h w =
      (u - w) + ∑ j ∈ range s, (h * b j) • (stages a f h u j - stages a f h w j) := by
    simp only [Spec.rkNew, smul_sub, sum_sub_distrib]; abel
  rw [e]
  refine (norm_add_le _ _).trans ?_
  rw [add_mul, one_mul]
  refine add_le_add_right ((norm_sum_le _ _).trans ?_) _
  rw [mul_assoc, mul_assoc, hS, sum_mul, mul_sum]
  refine sum_le_sum fun l hl => ?_
  rw [norm_smul, norm_mul, Real.norm_of_nonneg h0, Real.norm_eq_abs, mul_assoc]
  exact mul_le_mul_of_nonneg_left (mul_le_mul_of_nonneg_left ((H l (mem_range.1 hl) h h0 h1).2 u w hu hw) (abs_nonneg _)) h0

theorem SolvesOn.bound {f : E → E} {T : ℝ} {y : ℝ → E} (h : SolvesOn f T y) :
    ∃ R : ℝ, 0 ≤ R ∧ ∀ t ∈ Set.Icc 0 T, ‖y t‖ ≤ R := by
  obtain ⟨R, hR⟩ := isCompact_Icc.exists_bound_of_continuousOn (s := Set.Icc 0 T) (f := y) fun t ht => (h t ht).continuousWithinAt
  exact ⟨max R 0, le_max_right _ _, fun t ht => (hR t ht).trans (le_max_left _ _)⟩

/-- Times and step sizes inside `[0, T]`. -/
def Inside (T : ℝ) (t h : ℝ) : Prop := 0 ≤ t ∧ 0 ≤ h ∧ h ≤ 1 ∧ t + h ≤ T

theorem SolvesOn.shift {f : E → E} {T : ℝ} {y : ℝ → E} (h : SolvesOn f T y) (t d : ℝ) (hd : Inside T t d) :
    ∀ x ∈ Set.Icc 0 d, HasDerivWithinAt (fun x => y (t + x) - y t) (f (y (t + x))) (Set.Icc 0 d) x := by
  intro x hx
  obtain ⟨h0, h1, h2, h3⟩ := hd
  have hy := h (t + x) ⟨by linarith [hx.1], by linarith [hx.2]⟩
  have h4 : HasDerivWithinAt (fun x => t + x) 1 (Set.Icc 0 d) x := (hasDerivWithinAt_id x _).const_add t
  have h5 := HasDerivWithinAt.scomp (t' := Set.Icc 0 T) x hy h4 (fun z hz => ⟨by linarith [hz.1], by linarith [hz.2]⟩)
  rw [one_smul] at h5
  exact h5.sub_const _

theorem inside_range {T : ℝ} : ∀ t h, Inside T t h → 0 ≤ h ∧ h ≤ 1 := fun _ _ h => ⟨h.2.1, h.2.2.1⟩

theorem inside_mono {T : ℝ} : ∀ t h h', Inside T t h → 0 ≤ h' → h' ≤ h → Inside T t h' :=
  fun _ _ _ h h0 h1 => ⟨h.1, h0, h1.trans h.2.2.1, by linarith [h.2.2.2]⟩

/-- Derivative of the quadratic field. -/
noncomputable def quadDeriv (A : E →L[ℝ] E) (Q : E →L[ℝ] E →L[ℝ] E) (u : E) : E →L[ℝ] E := A + Q u + Q.flip u

theorem quad_expand {f : E → E} {c : E} {A : E →L[ℝ] E} {Q : E →L[ℝ] E →L[ℝ] E} (hf : ∀ u, f u = c + A u + Q u u) (u v : E) :
    f (u + v) = f u + quadDeriv A Q u v + Q v v := by
  rw [hf, hf]
  simp only [quadDeriv, map_add, add_apply, ContinuousLinearMap.flip_apply]
  abel

theorem quadDeriv_le (A : E →L[ℝ] E) (Q : E →L[ℝ] E →L[ℝ] E) (u : E) : ‖quadDeriv A Q u‖ ≤ ‖A‖ + 2 * (‖Q‖ * ‖u‖) := by
  have h1 := Q.le_opNorm u
  have h2 := Q.flip.le_opNorm u
  rw [ContinuousLinearMap.opNorm_flip] at h2
  have := (norm_add_le (A + Q u) (Q.flip u)).trans (add_le_add_left (norm_add_le _ _) _)
  unfold quadDeriv
  linarith

/-- Local error of an explicit Runge-Kutta method of order `q`. -/
theorem rk_local {f : E → E} (hf : QuadField f) {s : ℕ} {a : ℕ → ℕ → ℝ} (ha : Explicit s a) {b : ℕ → ℝ} {q : ℕ}
    (hq : HasOrder s a b q) {T : ℝ} {y : ℝ → E} (hy : SolvesOn f T y) :
    ∃ C, 0 ≤ C ∧ ∀ t h, Inside T t h → ‖Spec.rkNew s a b f h (y t) - y (t + h)‖ ≤ C * h ^ (q + 1) := by
  obtain ⟨R, hR, hyR⟩ := hy.bound
  obtain ⟨Mf, -, hMf, -, hfb, -⟩ := hf.bounds R
  obtain ⟨Ms, _, hMs, _, hst⟩ := stages_bounds hf a R s
  have hf' := hf
  obtain ⟨c, A, Q, hf⟩ := hf
  have hin : ∀ t h, Inside T t h → t ∈ Set.Icc 0 T := fun t h hp => ⟨hp.1, by linarith [hp.2.1, hp.2.2.2]⟩
  have hin' : ∀ t h, Inside T t h → t + h ∈ Set.Icc 0 T := fun t h hp => ⟨by linarith [hp.1, hp.2.1], hp.2.2.2⟩
  let v : ℕ → ℝ → ℝ → E := fun i t h => h • ∑ j ∈ range s, a i j • stages a f h (y t) j
  have hk : ∀ j < s, ∀ t h, stages a f h (y t) j = f (y t) + quadDeriv A Q (y t) (v j t h) + Q (v j t h) (v j t h) := by
    intro j hj t h
    rw [← quad_expand hf, stages_eq]
    congr 2
    simp only [v]
    rw [smul_sum]
    refine (sum_subset (range_subset_range.2 hj.le) fun l hl hlj => ?_).trans (sum_congr rfl fun l _ => by rw [smul_smul])
    rw [ha j hj l (mem_range.1 hl) (by simpa using hlj), mul_zero, zero_smul]
  set S := ∑ i ∈ range s, ∑ j ∈ range s, |a i j| with hS
  have hS0 : 0 ≤ S := sum_nonneg fun i _ => sum_nonneg fun j _ => abs_nonneg _
  set M := Mf + (‖A‖ + 2 * (‖Q‖ * R)) + 2 * R + S * Ms with hMdef
  have hA : 0 ≤ ‖A‖ + 2 * (‖Q‖ * R) := by positivity
  have hSM : 0 ≤ S * Ms := by positivity
  have hM : 0 ≤ M := by rw [hMdef]; linarith
  have p1 : ∀ t h, Inside T t h → ‖f (y t)‖ ≤ M := fun t h hp =>
    (hfb _ (hyR t (hin t h hp))).trans (by rw [hMdef]; linarith)
  have p2 : ∀ t h, Inside T t h → ‖quadDeriv A Q (y t)‖ ≤ M := fun t h hp => by
    refine (quadDeriv_le A Q (y t)).trans ?_
    have := mul_le_mul_of_nonneg_left (hyR t (hin t h hp)) (norm_nonneg Q)
    rw [hMdef]; linarith
  have p3 : ∀ t h, Inside T t h → ∀ x ∈ Set.Icc 0 h, HasDerivWithinAt (fun h => y (t + h) - y t)
      (f (y t) + quadDeriv A Q (y t) (y (t + x) - y t) + Q (y (t + x) - y t) (y (t + x) - y t)) (Set.Icc 0 h) x := fun t h hp x hx => by
    have := hy.shift t h hp x hx
    refine this.congr_deriv ?_
    rw [← quad_expand hf, add_sub_cancel]
  have p4 : ∀ t h, Inside T t h → ‖y (t + h) - y t‖ ≤ M := fun t h hp => by
    refine (norm_sub_le _ _).trans ?_
    have h1 := hyR t (hin t h hp)
    have h2 := hyR (t + h) (hin' t h hp)
    rw [hMdef]; linarith
  have p5 : ∀ i t h, v i t h = h • ∑ j ∈ range s, a i j • (f (y t) + quadDeriv A Q (y t) (v j t h) + Q (v j t h) (v j t h)) := fun i t h => by
    simp only [v]
    congr 1
    refine sum_congr rfl fun j hj => ?_
    rw [hk j (mem_range.1 hj)]
  have p6 : ∀ i < s, ∀ t h, Inside T t h → ‖v i t h‖ ≤ M := fun i hi t h hp => by
    have h0 := hp.2.1
    have h1 := hp.2.2.1
    have hs : ‖∑ j ∈ range s, a i j • stages a f h (y t) j‖ ≤ S * Ms := by
      refine (norm_sum_le _ _).trans ?_
      calc _ ≤ ∑ j ∈ range s, |a i j| * Ms := sum_le_sum fun j hj => by
              rw [norm_smul, Real.norm_eq_abs]
              exact mul_le_mul_of_nonneg_left ((hst j (mem_range.1 hj) h h0 h1).1 _ (hyR t (hin t h hp))) (abs_nonneg _)
        _ = (∑ j ∈ range s, |a i j|) * Ms := by rw [sum_mul]
        _ ≤ S * Ms := mul_le_mul_of_nonneg_right (single_le_sum (f := fun i => ∑ j ∈ range s, |a i j|)
              (fun i _ => sum_nonneg fun j _ => abs_nonneg _) (mem_range.2 hi)) hMs
    simp only [v]
    rw [norm_smul, Real.norm_of_nonneg h0]
    calc _ ≤ 1 * (S * Ms) := mul_le_mul h1 hs (norm_nonneg _) zero_le_one
      _ ≤ M := by rw [hMdef]; linarith
  obtain ⟨C, hC, H⟩ := local_error_jet (P := ℝ) (D := Inside T) (s := s) (a := a) inside_range inside_mono (F0 := fun t => f (y t))
    (B := fun t => quadDeriv A Q (y t)) Q hM p1 p2 (y := fun t h => y (t + h) - y t) (fun t h hp => by simp) p3 p4 p5 p6 hq
  refine ⟨C, hC, fun t h hp => ?_⟩
  have := H t h hp
  have e : h • ∑ i ∈ range s, b i • (f (y t) + quadDeriv A Q (y t) (v i t h) + Q (v i t h) (v i t h)) - (y (t + h) - y t) =
      Spec.rkNew s a b f h (y t) - y (t + h) := by
    rw [sum_congr rfl fun i hi => by rw [← hk i (mem_range.1 hi)], smul_sum, Spec.rkNew]
    simp only [smul_smul]
    abel
  rwa [e] at this

/-- One step of the error recursion. -/
theorem gronwall_step {C L t d H e : ℝ} {q : ℕ} (hC : 0 ≤ C) (hL : 0 ≤ L) (ht : 0 ≤ t) (hd : 0 ≤ d) (hdH : d ≤ H)
    (he : e ≤ C * t * H ^ q * Real.exp (L * t)) (he0 : 0 ≤ e) :
    (1 + d * L) * e + C * d ^ (q + 1) ≤ C * (t + d) * H ^ q * Real.exp (L * (t + d)) := by
  have hH : 0 ≤ H := hd.trans hdH
  have h1 : 1 + d * L ≤ Real.exp (L * d) := by have := Real.add_one_le_exp (L * d); linarith [mul_comm L d]
  have h2 : (1 + d * L) * e ≤ Real.exp (L * d) * (C * t * H ^ q * Real.exp (L * t)) :=
    mul_le_mul h1 he he0 (Real.exp_pos _).le
  have h3 : Real.exp (L * d) * (C * t * H ^ q * Real.exp (L * t)) = C * t * H ^ q * Real.exp (L * (t + d)) := by
    rw [mul_add, Real.exp_add]; ring
  have h4 : C * d ^ (q + 1) ≤ C * d * H ^ q * Real.exp (L * (t + d)) := by
    have h5 : d ^ q ≤ H ^ q := pow_le_pow_left₀ hd hdH q
    have h6 : 1 ≤ Real.exp (L * (t + d)) := Real.one_le_exp (by positivity)
    calc C * d ^ (q + 1) = C * d * d ^ q := by ring
      _ ≤ C * d * H ^ q := mul_le_mul_of_nonneg_left h5 (by positivity)
      _ = C * d * H ^ q * 1 := (mul_one _).symm
      _ ≤ _ := mul_le_mul_of_nonneg_left h6 (by positivity)
  calc _ ≤ C * t * H ^ q * Real.exp (L * (t + d)) + C * d * H ^ q * Real.exp (L * (t + d)) := by linarith
    _ = _ := by ring

/-- Convergence with order `q` for any step sizes at most `H`. -/
theorem rk_global {f : E → E} (hf : QuadField f) {s : ℕ} {a : ℕ → ℕ → ℝ} (ha : Explicit s a) {b : ℕ → ℝ} {q : ℕ} (hq1 : 1 ≤ q)
    (hq : HasOrder s a b q) {T : ℝ} (hT : 0 ≤ T) {y : ℝ → E} (hy : SolvesOn f T y) :
    ∃ C H0 : ℝ, 0 < H0 ∧ ∀ H, 0 ≤ H → H ≤ H0 → ∀ ds : List ℝ, (∀ d ∈ ds, 0 ≤ d ∧ d ≤ H) → ds.sum ≤ T →
      ‖ds.foldl (fun u d => Spec.rkNew s a b f d u) (y 0) - y ds.sum‖ ≤ C * H ^ q := by
  obtain ⟨R, hR, hyR⟩ := hy.bound
  obtain ⟨C, hC, Hloc⟩ := rk_local hf ha hq hy
  obtain ⟨L, hL, Hlip⟩ := rkNew_lipschitz hf s a b (R + 1)
  set K := C * T * Real.exp (L * T) with hK
  have hK0 : 0 ≤ K := by positivity
  refine ⟨K, min 1 (1 / (K + 1)), lt_min one_pos (by positivity), fun H hH0 hH ds hds hsum => ?_⟩
  have hmain : ∀ (ds : List ℝ), (∀ d ∈ ds, 0 ≤ d ∧ d ≤ H) → ∀ (t : ℝ) (u : E), 0 ≤ t → t + ds.sum ≤ T →
      ‖u - y t‖ ≤ C * t * H ^ q * Real.exp (L * t) →
      ‖ds.foldl (fun u d => Spec.rkNew s a b f d u) u - y (t + ds.sum)‖ ≤ C * (t + ds.sum) * H ^ q * Real.exp (L * (t + ds.sum)) := by
    intro ds
    induction ds with
    | nil => intro _ t u _ _ h; simpa using h
    | cons d ds ih =>
      intro hds t u ht hsum hu
      obtain ⟨hd0, hdH⟩ := hds d (List.mem_cons_self ..)
      have hsum0 : 0 ≤ ds.sum := List.sum_nonneg fun x hx => (hds x (List.mem_cons_of_mem _ hx)).1
      rw [List.sum_cons] at hsum
      have hH0 : 0 ≤ H := hd0.trans hdH
      have hH1 : H ≤ 1 := hH.trans (min_le_left _ _)
      have hHK : H * (K + 1) ≤ 1 := by
        have := hH.trans (min_le_right _ _)
        rwa [le_div_iff₀ (by positivity)] at this
      have htT : t ≤ T := by linarith
      have hsmall : C * t * H ^ q * Real.exp (L * t) ≤ 1 := by
        have h1 : Real.exp (L * t) ≤ Real.exp (L * T) := Real.exp_le_exp.2 (mul_le_mul_of_nonneg_left htT hL)
        have h2 : H ^ q ≤ H := by
          calc H ^ q ≤ H ^ 1 := pow_le_pow_of_le_one hH0 hH1 hq1
            _ = H := pow_one H
        calc C * t * H ^ q * Real.exp (L * t) ≤ C * T * H * Real.exp (L * T) := by gcongr
          _ = H * K := by rw [hK]; ring
          _ ≤ 1 := by nlinarith
      have hyt : ‖y t‖ ≤ R := hyR t ⟨ht, htT⟩
      have huR : ‖u‖ ≤ R + 1 := by
        have : u = (u - y t) + y t := by abel
        rw [this]
        refine (norm_add_le _ _).trans ?_
        linarith [hu.trans hsmall]
      have h1 := Hlip d hd0 (hdH.trans hH1) u (y t) huR (by linarith)
      have h2 := Hloc t d ⟨ht, hd0, hdH.trans hH1, by linarith⟩
      have h3 : ‖Spec.rkNew s a b f d u - y (t + d)‖ ≤ C * (t + d) * H ^ q * Real.exp (L * (t + d)) := by
        refine le_trans ?_ (gronwall_step hC hL ht hd0 hdH hu (norm_nonneg _))
        have : Spec.rkNew s a b f d u - y (t + d) = (Spec.rkNew s a b f d u - Spec.rkNew s a b f d (y t)) + (Spec.rkNew s a b f d (y t) - y (t + d)) := by abel
        rw [this]
        exact (norm_add_le _ _).trans (add_le_add h1 h2)
      have := ih (fun x hx => hds x (List.mem_cons_of_mem _ hx)) (t + d) (Spec.rkNew s a b f d u) (by linarith) (by linarith) h3
      rw [List.foldl_cons, List.sum_cons, ← add_assoc]
      exact this
  have hsum0 : 0 ≤ ds.sum := List.sum_nonneg fun x hx => (hds x hx).1
  have := hmain ds hds 0 (y 0) (le_refl _) (by linarith) (by simp)
  rw [zero_add] at this
  refine this.trans ?_
  have h1 : Real.exp (L * ds.sum) ≤ Real.exp (L * T) := Real.exp_le_exp.2 (mul_le_mul_of_nonneg_left hsum hL)
  calc _ ≤ C * T * H ^ q * Real.exp (L * T) := by gcongr
    _ = K * H ^ q := by rw [hK]; ring

/-! ### Adams-Bashforth -/

/-- Euler's method as a tableau. -/
theorem euler_order : HasOrder 1 (fun _ _ => (0 : ℝ)) (fun _ => 1) 1 := by
  intro t ht
  cases t with
  | leaf => simp [Tree.weight, Tree.elem, Tree.dens, Tree.densAux]
  | graft t s =>
    have h1 := order_pos t
    have h2 := order_pos s
    simp only [Tree.order] at ht
    omega

theorem euler_explicit : Explicit 1 (fun _ _ => (0 : ℝ)) := fun _ _ _ _ _ => rfl

theorem rkNew_euler (f : E → E) (h : ℝ) (u : E) : Spec.rkNew 1 (fun _ _ => (0 : ℝ)) (fun _ => 1) f h u = u + h • f u := by
  rw [Spec.rkNew, sum_range_one, stages_eq, sum_range_zero, mul_one, add_zero]

theorem sum_intJet3 {P : Type*} (c : P → ℕ → E) (p : P) (h : ℝ) : ∑ m ∈ range (2 + 1), h ^ m • intJet c p m =
    h • (1 / ((0 : ℕ) + 1 : ℝ)) • c p 0 + h ^ 2 • (1 / ((1 : ℕ) + 1 : ℝ)) • c p 1 := by
  rw [sum_range_succ, sum_range_succ, sum_range_succ, sum_range_zero, zero_add, pow_zero, pow_one, show intJet c p 0 = 0 from rfl, smul_zero,
    zero_add]
  rfl

theorem sum_jet2 {P : Type*} (c : P → ℕ → E) (p : P) (h : ℝ) : ∑ m ∈ range 2, h ^ m • c p m = c p 0 + h • c p 1 := by
  rw [sum_range_succ, sum_range_succ, sum_range_zero, zero_add, pow_zero, pow_one, one_smul]

/-- Local error of the two-step formula. -/
theorem ab2_local {f : E → E} (hf : QuadField f) {T : ℝ} {y : ℝ → E} (hy : SolvesOn f T y) :
    ∃ C, 0 ≤ C ∧ ∀ t h, 0 ≤ h → Inside T t (2 * h) →
      ‖y (t + 2 * h) - y (t + h) - ((3 / 2 : ℝ) • h • f (y (t + h)) - (1 / 2 : ℝ) • h • f (y t))‖ ≤ C * h ^ 3 := by
  obtain ⟨R, hR, hyR⟩ := hy.bound
  obtain ⟨Mf, _, hMf, _, hfb, _⟩ := hf.bounds R
  obtain ⟨c, A, Q, hf⟩ := hf
  have hin : ∀ t h, Inside T t h → t ∈ Set.Icc 0 T := fun t h hp => ⟨hp.1, by linarith [hp.2.1, hp.2.2.2]⟩
  have hin' : ∀ t h, Inside T t h → t + h ∈ Set.Icc 0 T := fun t h hp => ⟨by linarith [hp.1, hp.2.1], hp.2.2.2⟩
  set M := Mf + (‖A‖ + 2 * (‖Q‖ * R)) + 2 * R with hMdef
  have hA : 0 ≤ ‖A‖ + 2 * (‖Q‖ * R) := by positivity
  have hM : 0 ≤ M := by rw [hMdef]; linarith
  have p1 : ∀ t h, Inside T t h → ‖f (y t)‖ ≤ M := fun t h hp =>
    (hfb _ (hyR t (hin t h hp))).trans (by rw [hMdef]; linarith)
  have p2 : ∀ t h, Inside T t h → ‖quadDeriv A Q (y t)‖ ≤ M := fun t h hp => by
    refine (quadDeriv_le A Q (y t)).trans ?_
    have := mul_le_mul_of_nonneg_left (hyR t (hin t h hp)) (norm_nonneg Q)
    rw [hMdef]; linarith
  have p3 : ∀ t h, Inside T t h → ∀ x ∈ Set.Icc 0 h, HasDerivWithinAt (fun h => y (t + h) - y t)
      (f (y t) + quadDeriv A Q (y t) (y (t + x) - y t) + Q (y (t + x) - y t) (y (t + x) - y t)) (Set.Icc 0 h) x := fun t h hp x hx => by
    have := hy.shift t h hp x hx
    refine this.congr_deriv ?_
    rw [← quad_expand hf, add_sub_cancel]
  have p4 : ∀ t h, Inside T t h → ‖y (t + h) - y t‖ ≤ M := fun t h hp => by
    refine (norm_sub_le _ _).trans ?_
    have h1 := hyR t (hin t h hp)
    have h2 := hyR (t + h) (hin' t h hp)
    rw [hMdef]; linarith
  have j2 := exact_jet (P := ℝ) (D := Inside T) inside_range inside_mono (F0 := fun t => f (y t)) (B := fun t => quadDeriv A Q (y t)) Q hM
    p1 p2 (v := fun t h => y (t + h) - y t) (fun t h hp => by simp) p3 p4 2
  have jk := j2.field inside_range Q hM p1 p2
  obtain ⟨C3, hC3, H3⟩ := jk.integral inside_range inside_mono (v := fun t h => y (t + h) - y t) (fun t h hp => by simp) p3
  obtain ⟨C2, hC2, H2⟩ := jk
  set K := fieldJet (fun t => f (y t)) (fun t => quadDeriv A Q (y t)) Q (exJet (fun t => f (y t)) (fun t => quadDeriv A Q (y t)) Q 2) with hK
  refine ⟨8 * C3 + C3 + 3 / 2 * C2, by positivity, fun t h h0 hp => ?_⟩
  have hp' : Inside T t h := inside_mono t _ h hp h0 (by linarith)
  have hp0 : Inside T t 0 := inside_mono t _ 0 hp (le_refl _) (by linarith)
  have e1 := (H3 t h hp').1
  have e2 := (H3 t (2 * h) hp).1
  have e3 := (H2 t h hp').1
  have e4 := (H2 t 0 hp0).1
  rw [sum_intJet3] at e1 e2
  rw [sum_jet2] at e3 e4
  dsimp only at e3 e4
  rw [← quad_expand hf, add_sub_cancel] at e3 e4
  rw [add_zero, zero_smul, add_zero, zero_pow two_ne_zero, mul_zero, norm_le_zero_iff, sub_eq_zero] at e4
  have key : y (t + 2 * h) - y (t + h) - ((3 / 2 : ℝ) • h • f (y (t + h)) - (1 / 2 : ℝ) • h • f (y t)) =
      (y (t + 2 * h) - y t - ((2 * h) • (1 / ((0 : ℕ) + 1 : ℝ)) • K t 0 + (2 * h) ^ 2 • (1 / ((1 : ℕ) + 1 : ℝ)) • K t 1))
      - (y (t + h) - y t - (h • (1 / ((0 : ℕ) + 1 : ℝ)) • K t 0 + h ^ 2 • (1 / ((1 : ℕ) + 1 : ℝ)) • K t 1))
      - (3 / 2 * h) • (f (y (t + h)) - (K t 0 + h • K t 1)) := by
    rw [e4]
    push_cast
    module
  rw [key]
  have n1 := norm_sub_le ((y (t + 2 * h) - y t - ((2 * h) • (1 / ((0 : ℕ) + 1 : ℝ)) • K t 0 + (2 * h) ^ 2 • (1 / ((1 : ℕ) + 1 : ℝ)) • K t 1))
      - (y (t + h) - y t - (h • (1 / ((0 : ℕ) + 1 : ℝ)) • K t 0 + h ^ 2 • (1 / ((1 : ℕ) + 1 : ℝ)) • K t 1)))
      ((3 / 2 * h) • (f (y (t + h)) - (K t 0 + h • K t 1)))
  have n2 := norm_sub_le (y (t + 2 * h) - y t - ((2 * h) • (1 / ((0 : ℕ) + 1 : ℝ)) • K t 0 + (2 * h) ^ 2 • (1 / ((1 : ℕ) + 1 : ℝ)) • K t 1))
      (y (t + h) - y t - (h • (1 / ((0 : ℕ) + 1 : ℝ)) • K t 0 + h ^ 2 • (1 / ((1 : ℕ) + 1 : ℝ)) • K t 1))
  rw [norm_smul, Real.norm_of_nonneg (by positivity)] at n1
  have n3 : 3 / 2 * h * ‖f (y (t + h)) - (K t 0 + h • K t 1)‖ ≤ 3 / 2 * h * (C2 * h ^ 2) := mul_le_mul_of_nonneg_left e3 (by positivity)
  have n4 : C3 * (2 * h) ^ (2 + 1) = 8 * C3 * h ^ 3 := by ring
  have n5 : C3 * h ^ (2 + 1) = C3 * h ^ 3 := by ring
  have n6 : 3 / 2 * h * (C2 * h ^ 2) = 3 / 2 * C2 * h ^ 3 := by ring
  rw [n4] at e2; rw [n5] at e1; rw [n6] at n3
  linarith

/-- Two-step Adams-Bashforth started with one Euler step converges with order two. -/
theorem ab2_global {f : E → E} (hf : QuadField f) {T : ℝ} (hT : 0 ≤ T) {y : ℝ → E} (hy : SolvesOn f T y) :
    ∃ C H0 : ℝ, 0 < H0 ∧ ∀ h, 0 ≤ h → h ≤ H0 → ∀ n : ℕ, n * h ≤ T →
      ‖ab2 f (fun _ => h) (y 0) n - y (n * h)‖ ≤ C * h ^ 2 := by
  obtain ⟨R, hR, hyR⟩ := hy.bound
  obtain ⟨C1, hC1, Hloc1⟩ := rk_local hf euler_explicit euler_order hy
  obtain ⟨C2, hC2, Hloc2⟩ := ab2_local hf hy
  obtain ⟨_, L, _, hL, _, Hlip⟩ := hf.bounds (R + 1)
  set K := (C1 + C2 * T) * Real.exp (2 * L * T) with hK
  have hK0 : 0 ≤ K := by positivity
  refine ⟨K, min (1 / 2) (1 / (K + 1)), lt_min (by norm_num) (by positivity), fun h h0 hh => ?_⟩
  have hh2 : h ≤ 1 / 2 := hh.trans (min_le_left _ _)
  have hhK : h * (K + 1) ≤ 1 := by
    have := hh.trans (min_le_right _ _)
    rwa [le_div_iff₀ (by positivity)] at this
  let B : ℕ → ℝ := fun n => (C1 + C2 * (n * h)) * h ^ 2 * Real.exp (2 * L * (n * h))
  have hB0 : ∀ n, 0 ≤ B n := fun n => by simp only [B]; positivity
  have hBK : ∀ n : ℕ, n * h ≤ T → B n ≤ K * h ^ 2 := by
    intro n hn
    have h1 : Real.exp (2 * L * (n * h)) ≤ Real.exp (2 * L * T) := Real.exp_le_exp.2 (mul_le_mul_of_nonneg_left hn (by positivity))
    calc B n ≤ (C1 + C2 * T) * h ^ 2 * Real.exp (2 * L * T) := by simp only [B]; gcongr
      _ = K * h ^ 2 := by rw [hK]; ring
  have hsmall : ∀ n : ℕ, n * h ≤ T → B n ≤ 1 := by
    intro n hn
    refine (hBK n hn).trans ?_
    have h1 : h ^ 2 ≤ h := by nlinarith
    have := mul_le_mul_of_nonneg_left h1 hK0
    nlinarith
  have hball : ∀ (n : ℕ) (u : E), n * h ≤ T → ‖u - y (n * h)‖ ≤ B n → ‖u‖ ≤ R + 1 ∧ ‖y (n * h)‖ ≤ R + 1 := by
    intro n u hn hu
    have h1 := hyR (n * h) ⟨by positivity, hn⟩
    refine ⟨?_, by linarith⟩
    have : u = (u - y (n * h)) + y (n * h) := by abel
    rw [this]
    refine (norm_add_le _ _).trans ?_
    linarith [hu.trans (hsmall n hn)]
  have hstep : ∀ n : ℕ, (1 + 2 * h * L) * B (n + 1) + C2 * h ^ 3 ≤ B (n + 2) := by
    intro n
    have h1 : 1 + 2 * h * L ≤ Real.exp (2 * L * h) := by have := Real.add_one_le_exp (2 * L * h); nlinarith
    have h2 := mul_le_mul_of_nonneg_right h1 (hB0 (n + 1))
    have h3 : Real.exp (2 * L * h) * B (n + 1) = (C1 + C2 * ((n + 1) * h)) * h ^ 2 * Real.exp (2 * L * ((n + 2) * h)) := by
      simp only [B]
      push_cast
      rw [show 2 * L * (((n : ℝ) + 2) * h) = 2 * L * h + 2 * L * ((n + 1) * h) by ring, Real.exp_add]
      ring
    have h4 : C2 * h ^ 3 ≤ C2 * h * h ^ 2 * Real.exp (2 * L * ((n + 2) * h)) := by
      have h6 : 1 ≤ Real.exp (2 * L * (((n : ℝ) + 2) * h)) := Real.one_le_exp (by positivity)
      calc C2 * h ^ 3 = C2 * h * h ^ 2 * 1 := by ring
        _ ≤ _ := mul_le_mul_of_nonneg_left h6 (by positivity)
    have h5 : B (n + 2) = (C1 + C2 * ((n + 1) * h)) * h ^ 2 * Real.exp (2 * L * ((n + 2) * h)) + C2 * h * h ^ 2 * Real.exp (2 * L * ((n + 2) * h)) := by
      simp only [B]
      push_cast
      ring
    linarith
  have hBmono : ∀ n : ℕ, B n ≤ B (n + 1) := by
    intro n
    simp only [B]
    push_cast
    have : (n : ℝ) * h ≤ ((n : ℝ) + 1) * h := by nlinarith
    gcongr
  have hmain : ∀ n : ℕ, (n * h ≤ T → ‖ab2 f (fun _ => h) (y 0) n - y (n * h)‖ ≤ B n) ∧
      ((n + 1 : ℕ) * h ≤ T → ‖ab2 f (fun _ => h) (y 0) (n + 1) - y ((n + 1 : ℕ) * h)‖ ≤ B (n + 1)) := by
    intro n
    induction n with
    | zero =>
      refine ⟨fun _ => by simpa [ab2] using hB0 0, fun h1 => ?_⟩
      have h2 := Hloc1 0 h ⟨le_refl _, h0, by linarith, by simpa using h1⟩
      rw [rkNew_euler, zero_add] at h2
      simp only [zero_add, Nat.cast_one, one_mul, ab2]
      refine h2.trans ?_
      simp only [B]
      have h6 : 1 ≤ Real.exp (2 * L * (((0 + 1 : ℕ) : ℝ) * h)) := Real.one_le_exp (by positivity)
      calc C1 * h ^ (1 + 1) ≤ (C1 + C2 * (((0 + 1 : ℕ) : ℝ) * h)) * h ^ 2 * 1 := by
            have : 0 ≤ C2 * (((0 + 1 : ℕ) : ℝ) * h) * h ^ 2 := by positivity
            have h7 : (C1 + C2 * (((0 + 1 : ℕ) : ℝ) * h)) * h ^ 2 * 1 = C1 * h ^ (1 + 1) + C2 * (((0 + 1 : ℕ) : ℝ) * h) * h ^ 2 := by ring
            rw [h7]; linarith
        _ ≤ _ := mul_le_mul_of_nonneg_left h6 (by positivity)
    | succ n ih =>
      refine ⟨ih.2, fun h2 => ?_⟩
      have hn0 : (0 : ℝ) ≤ n := Nat.cast_nonneg n
      have hn1 : ((n + 1 : ℕ) : ℝ) * h ≤ T := by push_cast at h2 ⊢; nlinarith
      have hn : (n : ℝ) * h ≤ T := by push_cast at h2; nlinarith
      have e1 := ih.2 hn1
      have e0 := ih.1 hn
      obtain ⟨b1, b1'⟩ := hball (n + 1) _ hn1 e1
      obtain ⟨b0, b0'⟩ := hball n _ hn e0
      have l1 := Hlip _ _ b1 b1'
      have l0 := Hlip _ _ b0 b0'
      have hl := Hloc2 (n * h) h h0 ⟨by positivity, by positivity, by linarith, by push_cast at h2; linarith⟩
      have t1 : (n : ℝ) * h + h = ((n + 1 : ℕ) : ℝ) * h := by push_cast; ring
      have t2 : (n : ℝ) * h + 2 * h = ((n + 1 + 1 : ℕ) : ℝ) * h := by push_cast; ring
      rw [t1, t2] at hl
      set U1 := ab2 f (fun _ => h) (y 0) (n + 1) with hU1
      set U0 := ab2 f (fun _ => h) (y 0) n with hU0
      have hU2 : ab2 f (fun _ => h) (y 0) (n + 1 + 1) = U1 + (3 / 2 : ℝ) • h • f U1 - (1 / 2 : ℝ) • h • f U0 := rfl
      set Y0 := y (n * h)
      set Y1 := y ((n + 1 : ℕ) * h)
      set Y2 := y ((n + 1 + 1 : ℕ) * h)
      have e : ab2 f (fun _ => h) (y 0) (n + 1 + 1) - Y2 = (U1 - Y1) + (3 / 2 * h) • (f U1 - f Y1) - (1 / 2 * h) • (f U0 - f Y0)
          - (Y2 - Y1 - ((3 / 2 : ℝ) • h • f Y1 - (1 / 2 : ℝ) • h • f Y0)) := by
        rw [hU2]; module
      rw [e]
      have n1 := norm_sub_le ((U1 - Y1) + (3 / 2 * h) • (f U1 - f Y1) - (1 / 2 * h) • (f U0 - f Y0))
        (Y2 - Y1 - ((3 / 2 : ℝ) • h • f Y1 - (1 / 2 : ℝ) • h • f Y0))
      have n2 := norm_sub_le ((U1 - Y1) + (3 / 2 * h) • (f U1 - f Y1)) ((1 / 2 * h) • (f U0 - f Y0))
      have n3 := norm_add_le (U1 - Y1) ((3 / 2 * h) • (f U1 - f Y1))
      rw [norm_smul, Real.norm_of_nonneg (by positivity)] at n2 n3
      have m1 : 3 / 2 * h * ‖f U1 - f Y1‖ ≤ 3 / 2 * h * (L * B (n + 1)) :=
        mul_le_mul_of_nonneg_left (l1.trans (mul_le_mul_of_nonneg_left e1 hL)) (by positivity)
      have m0 : 1 / 2 * h * ‖f U0 - f Y0‖ ≤ 1 / 2 * h * (L * B (n + 1)) :=
        mul_le_mul_of_nonneg_left (l0.trans (mul_le_mul_of_nonneg_left (e0.trans (hBmono n)) hL)) (by positivity)
      have := hstep n
      show _ ≤ B (n + 2)
      nlinarith
  exact fun n hn => ((hmain n).1 hn).trans (hBK n hn)

end SpectralDNS

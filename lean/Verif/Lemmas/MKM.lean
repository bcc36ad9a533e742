import Verif.Model.MKM
import Verif.Spec.Flux
import Verif.Props.GalerkinField
import Verif.Props.Quadrature
import Verif.Lemmas.Torus

/-!
# Lemmas for C85
-/

namespace SpectralDNS.Channel

open Polynomial Periodic Spec.Field

section plane

variable {N : Fin 2 → ℕ}

theorem waves_waveGrid_zero (L : Fin 2 → ℝ) (hN : ∀ i, 0 < N i) (i : Fin 2) : waves N i (waveGrid N L hN).zero = 0 := by
  simp [waveGrid, waves, hN i]

theorem rweight_waveGrid_zero (L : Fin 2 → ℝ) (hN : ∀ i, 0 < N i) : rweight N (waveGrid N L hN).zero = 1 := by
  have h := waves_waveGrid_zero (N := N) L hN (Fin.last 1)
  unfold rweight
  rw [if_pos (Or.inl h)]

/-- The sum of a periodic array over the plane is the mean mode times the number of points. -/
theorem sum_backward (L : Fin 2 → ℝ) (hN : ∀ i, 0 < N i) (b : RModes N → ℂ) :
    ∑ p, (rspace N N).backward b p = (Fintype.card (Periodic.Grid N) : ℝ) * (b (waveGrid N L hN).zero).re := by
  classical
  simp only [rspace, dft]
  rw [← Complex.re_sum, Finset.sum_comm]
  have h : ∀ k, ∑ p, (rweight N k : ℂ) * b k * kernel (waves N) N k p =
      if k = (waveGrid N L hN).zero then (Fintype.card (Periodic.Grid N) : ℂ) * b k else 0 := fun k => by
    rw [← Finset.mul_sum]
    simp only [kernel]
    rw [grid_sum_exp N hN]
    by_cases hk : k = (waveGrid N L hN).zero
    · rw [if_pos hk, if_pos, hk, rweight_waveGrid_zero]
      · push_cast; ring
      · intro i; rw [hk, waves_waveGrid_zero]; exact dvd_zero _
    · rw [if_neg hk, if_neg, mul_zero]
      intro hd
      apply hk
      refine waves_inj N _ _ fun i => ?_
      rw [waves_waveGrid_zero]
      obtain ⟨h1, h2⟩ := waves_bounds N k i
      refine Int.eq_zero_of_abs_lt_dvd (hd i) ?_
      rw [abs_lt]
      have := hN i
      constructor <;> omega
  rw [Finset.sum_congr rfl fun k _ => h k, Finset.sum_ite_eq' Finset.univ, if_pos (Finset.mem_univ _)]
  simp

/-- The transform of an array which does not change along axis `i` has only modes with wavenumber zero along it. -/
theorem forward_const (hN : ∀ i, 0 < N i) (i : Fin 2) (f : Periodic.Grid N → ℝ) (hf : ∀ p a, f (Function.update p i a) = f p) (k : RModes N)
    (hk : waves N i k ≠ 0) : (rspace N N).forward f k = 0 := by
  have hnd : ¬ (N i : ℤ) ∣ -waves N i k := by
    rw [dvd_neg]
    intro hd
    obtain ⟨h1, h2⟩ := waves_bounds N k i
    refine hk (Int.eq_zero_of_abs_lt_dvd hd ?_)
    rw [abs_lt]
    have := hN i
    constructor <;> omega
  have h0 := sum_exp (N i) (hN i) (-waves N i k)
  rw [if_neg hnd] at h0
  have e : ∀ p : Periodic.Grid N, (starRingEnd ℂ) (kernel (waves N) N k p) =
      Complex.exp (2 * Real.pi * Complex.I * (((-waves N 0 k : ℤ) : ℂ) * ((p 0 : ℕ) : ℂ) / (N 0 : ℂ))) *
      Complex.exp (2 * Real.pi * Complex.I * (((-waves N 1 k : ℤ) : ℂ) * ((p 1 : ℕ) : ℂ) / (N 1 : ℂ))) := fun p => by
    rw [conj_kernel, Fin.sum_univ_two, mul_add, Complex.exp_add]
  simp only [rspace, dft, e]
  refine mul_eq_zero_of_right _ ?_
  rw [← (piFinTwoEquiv fun i => Fin (N i)).symm.sum_comp, Fintype.sum_prod_type]
  simp only [piFinTwoEquiv_symm_apply, Fin.cons_zero, Fin.cons_one]
  fin_cases i
  · rw [Finset.sum_comm]
    refine Finset.sum_eq_zero fun b _ => ?_
    have hc : ∀ a : Fin (N 0), f (Fin.cons a (Fin.cons b finZeroElim)) = f (Fin.cons ⟨0, hN 0⟩ (Fin.cons b finZeroElim)) := fun a => by
      have h := hf (Fin.cons ⟨0, hN 0⟩ (Fin.cons b finZeroElim)) a
      rw [← h]
      congr 1
      funext j
      fin_cases j <;> rfl
    simp only [hc]
    have h0' := congrArg (fun z => (f (Fin.cons ⟨0, hN 0⟩ (Fin.cons b finZeroElim)) : ℂ) *
      (z * Complex.exp (2 * Real.pi * Complex.I * (((-waves N 1 k : ℤ) : ℂ) * ((b : ℕ) : ℂ) / (N 1 : ℂ))))) h0
    simp only [Finset.sum_mul, Finset.mul_sum, zero_mul, mul_zero] at h0'
    exact h0'
  · refine Finset.sum_eq_zero fun a _ => ?_
    have hc : ∀ b : Fin (N 1), f (Fin.cons a (Fin.cons b finZeroElim)) = f (Fin.cons a (Fin.cons ⟨0, hN 1⟩ finZeroElim)) := fun b => by
      have h := hf (Fin.cons a (Fin.cons ⟨0, hN 1⟩ finZeroElim)) b
      rw [← h]
      congr 1
      funext j
      fin_cases j <;> rfl
    simp only [hc]
    have h0' := congrArg (fun z => (f (Fin.cons a (Fin.cons ⟨0, hN 1⟩ finZeroElim)) : ℂ) *
      (Complex.exp (2 * Real.pi * Complex.I * (((-waves N 0 k : ℤ) : ℂ) * ((a : ℕ) : ℂ) / (N 0 : ℂ))) * z)) h0
    simp only [Finset.mul_sum, mul_zero] at h0'
    exact h0'

theorem backward_const (i : Fin 2) (b : RModes N → ℂ) (hb : ∀ k, waves N i k ≠ 0 → b k = 0) (p : Periodic.Grid N) (a : Fin (N i)) :
    (rspace N N).backward b (Function.update p i a) = (rspace N N).backward b p := by
  simp only [rspace, dft]
  congr 1
  refine Finset.sum_congr rfl fun k _ => ?_
  by_cases h : waves N i k = 0
  · congr 1
    simp only [kernel]
    congr 2
    refine Finset.sum_congr rfl fun j _ => ?_
    by_cases hj : j = i
    · subst hj; rw [h]; simp
    · rw [Function.update_of_ne hj]
  · rw [hb k h]; simp

end plane

section profile

variable {n : ℕ}

/-- The real part of a profile. -/
noncomputable def reProfile (d : Fin (n + 2) → ℂ) : ℝ[X] := ∑ j, (d j).re • phi j

theorem eval_expandC_re (d : Fin (n + 2) → ℂ) (x : ℝ) : ((expandC phi d).eval (x : ℂ)).re = (reProfile d).eval x := by
  simp only [expandC, LinearMap.sum_apply, LinearMap.smulRight_apply, LinearMap.proj_apply, eval_finsetSum, eval_smul, smul_eq_mul,
    reProfile, Complex.re_sum]
  refine Finset.sum_congr rfl fun j _ => ?_
  have : (eval (x : ℂ) ((phi j).map Complex.ofRealHom)) = (((phi j).eval x : ℝ) : ℂ) := by
    rw [eval_map, ← Complex.ofRealHom_eq_coe, ← Complex.ofRealHom_eq_coe, eval₂_at_apply]
  rw [this, Complex.re_mul_ofReal]

theorem degree_reProfile (d : Fin (n + 2) → ℂ) : (reProfile d).degree < (n + 4 : ℕ) := by
  refine lt_of_le_of_lt (degree_sum_le _ _) ((Finset.sup_lt_iff (by exact_mod_cast WithBot.bot_lt_coe _)).2 fun j _ => ?_)
  refine lt_of_le_of_lt (degree_smul_le _ _) ?_
  rw [degree_phi]
  exact_mod_cast (by have := j.2; omega : (j : ℕ) + 2 < n + 4)

theorem reProfile_update (d : Fin (n + 2) → ℂ) (c : ℝ) :
    reProfile (Function.update d 0 (d 0 + (c : ℂ))) = reProfile d + c • phi 0 := by
  simp only [reProfile]
  rw [Fin.sum_univ_succ, Fin.sum_univ_succ (fun j => (d j).re • phi j)]
  simp only [Function.update_self, Complex.add_re, Complex.ofReal_re, add_smul, Fin.val_zero, ne_eq, Fin.succ_ne_zero, not_false_eq_true,
    Function.update_of_ne]
  ring

theorem integ_phi0 : Utilities.integ (phi 0) = 8 / 3 := by
  have h : phi 0 = Chebyshev.T ℝ ((0 : ℕ) : ℤ) + (-1 : ℝ) • Chebyshev.T ℝ ((2 : ℕ) : ℤ) := by
    simp only [phi]; norm_num [sub_eq_add_neg]
  rw [h, Utilities.integ_add, Utilities.integ_smul, Utilities.integ_T, Utilities.integ_T]
  norm_num

theorem dxRule_add (q : Quad) (c d : ℕ → ℝ) : dxRule n q (fun j => c j + d j) = dxRule n q c + dxRule n q d := by
  cases q
  · exact Utilities.dxGC_add _ _ _
  · exact Utilities.dxGL_add _ _ _

theorem dxRule_smul (q : Quad) (a : ℝ) (c : ℕ → ℝ) : dxRule n q (fun j => a * c j) = a * dxRule n q c := by
  cases q
  · exact Utilities.dxGC_smul _ _ _
  · exact Utilities.dxGL_smul _ _ _

theorem dxRule_congr (q : Quad) (c d : ℕ → ℝ) (h : ∀ j < n + 4, c j = d j) : dxRule n q c = dxRule n q d := by
  cases q
  · exact Utilities.dxGC_congr _ _ _ h
  · exact Utilities.dxGL_congr _ _ _ h

theorem quadPoint_GL (j : ℕ) : quadPoint .GL (n + 4) j = Utilities.xGL (n + 2) j := by
  simp only [quadPoint, Utilities.xGL]
  congr 2
  push_cast; ring

/-- Profiles of degree less than the number of points minus one are integrated exactly. -/
theorem dxRule_exact_any (q : Quad) (P : ℝ[X]) (hP : P.degree < (n + 3 : ℕ)) :
    dxRule n q (fun j => P.eval (quadPoint q (n + 4) j)) = Utilities.integ P := by
  cases q
  · refine Utilities.exact_of_T (Utilities.dxGC (n + 4)) (Utilities.dxGC_add _) (Utilities.dxGC_smul _) (Utilities.xGC (n + 4)) (n + 4)
      (fun m hm => Utilities.dxGC_T _ m hm) P (hP.trans ?_)
    exact_mod_cast (by omega : n + 3 < n + 4)
  · simp only [quadPoint_GL]
    refine Utilities.exact_of_T (Utilities.dxGL (n + 2)) (Utilities.dxGL_add _) (Utilities.dxGL_smul _) (Utilities.xGL (n + 2)) (n + 3)
      (fun m hm => ?_) P hP
    rw [Utilities.dxGL_T (n + 2) m (by omega), if_neg (by omega), one_mul]

/-- All the profiles of the Dirichlet space are integrated exactly, for Lobatto points if their number is even. -/
theorem dxRule_exact (q : Quad) (hq : q = .GC ∨ n % 2 = 0) (P : ℝ[X]) (hP : P.degree < (n + 4 : ℕ)) :
    dxRule n q (fun j => P.eval (quadPoint q (n + 4) j)) = Utilities.integ P := by
  cases q
  · exact Utilities.exact_of_T (Utilities.dxGC (n + 4)) (Utilities.dxGC_add _) (Utilities.dxGC_smul _) (Utilities.xGC (n + 4)) (n + 4)
      (fun m hm => Utilities.dxGC_T _ m hm) P hP
  · have hn : n % 2 = 0 := by simpa using hq
    simp only [quadPoint_GL]
    refine Utilities.exact_of_T (Utilities.dxGL (n + 2)) (Utilities.dxGL_add _) (Utilities.dxGL_smul _) (Utilities.xGL (n + 2)) (n + 4)
      (fun m hm => ?_) P hP
    rw [Utilities.dxGL_T (n + 2) m hm]
    split_ifs with h
    · rw [Utilities.integ_T, if_pos (by omega)]; simp
    · simp

end profile

section flux

variable {N : Fin 2 → ℕ} {n : ℕ}

/-- What `dx` returns for the array of a velocity component: the quadrature of the mean profile. -/
theorem dxChannel_eq (q : Quad) (L : Fin 2 → ℝ) (hN : ∀ i, 0 < N i) {R : Type*} [Fintype R]
    (blocks : R → Utilities.Block (n + 4) (Periodic.Grid N)) (hb : Utilities.Tiles blocks) (v : RModes N → Fin (n + 2) → ℂ) :
    dxChannel q n L blocks (bwdD (chebWall q n) (rspace N N) v) =
      L 0 * L 1 * dxRule n q (fun j => (reProfile (v (waveGrid N L hN).zero)).eval (quadPoint q (n + 4) j)) := by
  have h0 : (N 0 : ℝ) ≠ 0 := by exact_mod_cast (hN 0).ne'
  have h1 : (N 1 : ℝ) ≠ 0 := by exact_mod_cast (hN 1).ne'
  have hcard : (Fintype.card (Periodic.Grid N) : ℝ) = N 0 * N 1 := by
    rw [Fintype.card_pi, Fin.prod_univ_two]; simp
  unfold dxChannel Utilities.dx
  have e : ∀ j < n + 4, (fun j => if h : j < n + 4 then Utilities.gather blocks (bwdD (chebWall q n) (rspace N N) v) ⟨j, h⟩ else 0) j =
      (fun j => (N 0 * N 1 : ℝ) * (reProfile (v (waveGrid N L hN).zero)).eval (quadPoint q (n + 4) j)) j := fun j hj => by
    dsimp only
    rw [dif_pos hj, Utilities.gather_eq blocks hb]
    simp only [bwdD, synth]
    rw [sum_backward L hN, hcard]
    congr 1
    exact eval_expandC_re _ _
  rw [dxRule_congr q _ _ e, dxRule_smul]
  field_simp

theorem eval_integral_re {a b : ℝ} (f : ℝ → ℂ) (hf : Continuous f) : ∫ t in a..b, (f t).re = (∫ t in a..b, f t).re :=
  Complex.reCLM.intervalIntegral_comp_comm (hf.intervalIntegrable _ _)

theorem integral_wave (l : ℝ) (hl : 0 < l) (p : ℤ) :
    ∫ t in (0 : ℝ)..l, Complex.exp (Complex.I * (((2 * Real.pi / l * p : ℝ) : ℂ) * t)) = if p = 0 then (l : ℂ) else 0 := by
  rw [← _root_.SpectralDNS.Torus.integral_wave1 l hl p, MeasureTheory.integral_Icc_eq_integral_Ioc, ← intervalIntegral.integral_of_le hl.le]
  refine intervalIntegral.integral_congr fun t _ => ?_
  congr 1
  ring

/-- The flux of a field is that of its mean profile. -/
theorem flux_fieldOf (q : Quad) (L : Fin 2 → ℝ) (hN : ∀ i, 0 < N i) (hL : ∀ i, 0 < L i) (v : RModes N → Fin (n + 2) → ℂ) :
    flux L (fieldOf N L fun k => (chebWall q n).fD (v k)) = L 0 * L 1 * Utilities.integ (reProfile (v (waveGrid N L hN).zero)) := by
  classical
  unfold flux Utilities.integ
  rw [← intervalIntegral.integral_const_mul]
  refine intervalIntegral.integral_congr fun x _ => ?_
  have hz : ∀ y, ∫ z in (0 : ℝ)..L 1, fieldOf N L (fun k => (chebWall q n).fD (v k)) x y z =
      (∑ k, (rweight N k : ℂ) * ((chebWall q n).fD (v k)).eval (x : ℂ) * Complex.exp (Complex.I * ((scaledWaves N L 0 k : ℝ) * y)) *
        if waves N 1 k = 0 then (L 1 : ℂ) else 0).re := fun y => by
    unfold fieldOf field
    rw [eval_integral_re _ (by fun_prop), intervalIntegral.integral_finsetSum fun k _ => Continuous.intervalIntegrable (by fun_prop) _ _]
    congr 1
    refine Finset.sum_congr rfl fun k _ => ?_
    rw [← integral_wave (L 1) (hL 1), ← intervalIntegral.integral_const_mul]
    refine intervalIntegral.integral_congr fun z _ => ?_
    dsimp only
    rw [mul_assoc _ (Complex.exp _) (Complex.exp _), ← Complex.exp_add, ← mul_add]
    rfl
  simp only [hz]
  rw [eval_integral_re _ (by fun_prop), intervalIntegral.integral_finsetSum fun k _ => Continuous.intervalIntegrable (by fun_prop) _ _]
  have hy : ∀ k, (∫ y in (0 : ℝ)..L 0, (rweight N k : ℂ) * ((chebWall q n).fD (v k)).eval (x : ℂ) *
      Complex.exp (Complex.I * ((scaledWaves N L 0 k : ℝ) * y)) * if waves N 1 k = 0 then (L 1 : ℂ) else 0) =
      if k = (waveGrid N L hN).zero then (L 0 * L 1 : ℂ) * ((chebWall q n).fD (v k)).eval (x : ℂ) else 0 := fun k => by
    rw [intervalIntegral.integral_mul_const, intervalIntegral.integral_const_mul, scaledWaves, integral_wave (L 0) (hL 0)]
    by_cases hk : k = (waveGrid N L hN).zero
    · rw [if_pos hk, hk, waves_waveGrid_zero, waves_waveGrid_zero, rweight_waveGrid_zero]
      simp; ring
    · rw [if_neg hk]
      by_cases h0 : waves N 0 k = 0
      · by_cases h1 : waves N 1 k = 0
        · exact absurd (waves_inj N _ _ fun i => by fin_cases i <;> simp [waves_waveGrid_zero, h0, h1]) hk
        · simp [h1]
      · simp [h0]
  rw [Finset.sum_congr rfl fun k _ => hy k, Finset.sum_ite_eq' Finset.univ, if_pos (Finset.mem_univ _)]
  rw [← eval_expandC_re]
  have : ((L 0 * L 1 : ℂ)) = ((L 0 * L 1 : ℝ) : ℂ) := by push_cast; rfl
  rw [this, Complex.re_ofReal_mul]
  rfl

end flux

end SpectralDNS.Channel

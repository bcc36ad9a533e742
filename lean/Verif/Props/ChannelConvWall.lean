import Verif.Props.ChannelConv
import Verif.Props.MultDiv
import Verif.Lemmas.TrigAlg
import Mathlib.LinearAlgebra.Finsupp.LinearCombination
import Mathlib.Tactic.LinearCombination

/-!
# C73: a wall-normal direction with five Gauss-Lobatto points

The smallest grid on which the biharmonic basis is not empty.
-/

namespace SpectralDNS.Channel.Five

open Polynomial Polynomial.Chebyshev Periodic Spec.Field Spec.Cheb LUsolve

/-- `T_j - T_{j+2}`. -/
noncomputable def phi (j : Fin 3) : ℂ[X] := T ℂ (j : ℕ) - T ℂ ((j : ℕ) + 2 : ℕ)

/-- `T_0 - 4/3 T_2 + 1/3 T_4`. -/
noncomputable def psi : ℂ[X] := T ℂ (0 : ℕ) - (4 / 3 : ℂ) • T ℂ (2 : ℕ) + (1 / 3 : ℂ) • T ℂ (4 : ℕ)

/-- `p ↦ (p, q)` in the weighted inner product. -/
noncomputable def mom (q : ℂ[X]) : ℂ[X] →ₗ[ℂ] ℂ where
  toFun p := weighted (p * q)
  map_add' p r := by rw [add_mul, weighted_add]
  map_smul' c p := by rw [smul_mul_assoc, weighted_smul]; rfl

theorem mom_T (a b : ℕ) : mom (T ℂ (b : ℤ)) (T ℂ (a : ℤ)) = if a = b then (if a = 0 then (Real.pi : ℂ) else Real.pi / 2) else 0 := weighted_TT a b

theorem mom_sub (q r p : ℂ[X]) : mom (q - r) p = mom q p - mom r p := by
  have : q - r = q + (-1 : ℂ) • r := by simp [sub_eq_add_neg]
  simp only [mom, LinearMap.coe_mk, AddHom.coe_mk, this, mul_add, weighted_add, mul_smul_comm, weighted_smul]
  ring

theorem mom_add (q r p : ℂ[X]) : mom (q + r) p = mom q p + mom r p := by
  simp only [mom, LinearMap.coe_mk, AddHom.coe_mk, mul_add, weighted_add]

theorem mom_smul (c : ℂ) (q p : ℂ[X]) : mom (c • q) p = c * mom q p := by
  simp only [mom, LinearMap.coe_mk, AddHom.coe_mk, mul_smul_comm, weighted_smul]

/-- The quadrature points. -/
noncomputable def pts : Fin 5 → ℝ := fun j => Real.cos (Real.pi * j / 4)

/-- The wall-normal direction with `N[0] = 5`: Galerkin projections in the weighted inner product, and the discrete forward transform. -/
noncomputable def wall : Wall ℂ (Fin 3 → ℂ) (Fin 5 → ℂ) (Fin 5) where
  fB := LinearMap.toSpanSingleton ℂ _ psi
  fD := Fintype.linearCombination ℂ phi
  fC := Fintype.linearCombination ℂ fun n : Fin 5 => T ℂ (n : ℕ)
  x := pts
  fwd := { toFun := fun f => ![(f 1 + f 3) / 4 + f 2 / 4, (f 1 - f 3) / (4 * pts 1), (f 1 + f 3) / 4 - f 2 / 4]
           map_add' := fun f g => by ext i; fin_cases i <;> simp <;> ring
           map_smul' := fun c f => by ext i; fin_cases i <;> simp <;> ring }
  projB := (18 / (35 * Real.pi) : ℂ) • mom psi
  projD := LinearMap.pi ![(2 / (5 * Real.pi) : ℂ) • ((2 : ℂ) • mom (phi 0) + mom (phi 2)), (1 / Real.pi : ℂ) • mom (phi 1),
    (2 / (5 * Real.pi) : ℂ) • (mom (phi 0) + (3 : ℂ) • mom (phi 2))]
  projC := LinearMap.pi fun n : Fin 5 => ((if n = 0 then 1 / Real.pi else 2 / Real.pi : ℂ)) • mom (T ℂ (n : ℕ))
  ctd := (LinearMap.pi fun n : Fin 5 => ((if n = 0 then 1 / Real.pi else 2 / Real.pi : ℂ)) • mom (T ℂ (n : ℕ))) ∘ₗ
    Polynomial.derivative ∘ₗ Fintype.linearCombination ℂ phi
  toB := LinearMap.proj 0
  toD := LinearMap.single ℂ (fun _ => ℂ) 0

theorem T2 : T ℂ 2 = 2 * X ^ 2 - 1 := T_two ℂ

theorem T3 : T ℂ 3 = 4 * X ^ 3 - 3 * X := by
  have := T_add_two ℂ 1
  norm_num [T2] at this
  rw [this]; ring

theorem T4 : T ℂ 4 = 8 * X ^ 4 - 8 * X ^ 2 + 1 := by
  have := T_add_two ℂ 2
  norm_num [T2, T3] at this
  rw [this]; ring

theorem phi_zero : phi 0 = 2 - 2 * X ^ 2 := by norm_num [phi, T2]; ring
theorem phi_one : phi 1 = 4 * X - 4 * X ^ 3 := by norm_num [phi, T3]; ring
theorem phi_two : phi 2 = -2 + 10 * X ^ 2 - 8 * X ^ 4 := by norm_num [phi, T2, T4]; ring
theorem psi_eq : psi = (8 / 3 : ℂ) • (1 - X ^ 2) ^ 2 := by
  refine Polynomial.funext fun x => ?_
  norm_num [psi, T2, T4]
  ring

theorem dphi_zero : derivative (phi 0) = (-4 : ℂ) • T ℂ (1 : ℕ) := by
  refine Polynomial.funext fun x => ?_
  rw [phi_zero]; simp; ring
theorem dphi_one : derivative (phi 1) = (-2 : ℂ) • T ℂ (0 : ℕ) - (6 : ℂ) • T ℂ (2 : ℕ) := by
  refine Polynomial.funext fun x => ?_
  rw [phi_one]; simp [T2]; ring
theorem dphi_two : derivative (phi 2) = (-4 : ℂ) • T ℂ (1 : ℕ) - (8 : ℂ) • T ℂ (3 : ℕ) := by
  refine Polynomial.funext fun x => ?_
  rw [phi_two]; simp [T3]; ring
theorem dpsi : derivative psi = (-8 / 3 : ℂ) • phi 1 := by
  refine Polynomial.funext fun x => ?_
  rw [psi_eq, phi_one, derivative_smul]
  simp [derivative_pow]; ring

theorem mom_phi (i : Fin 3) (p : ℂ[X]) : mom (phi i) p = mom (T ℂ ((i : ℕ) : ℤ)) p - mom (T ℂ (((i : ℕ) + 2 : ℕ) : ℤ)) p := mom_sub _ _ _

theorem pi_ne : (Real.pi : ℂ) ≠ 0 := by exact_mod_cast Real.pi_ne_zero

theorem gram (i j : Fin 3) : mom (phi i) (phi j) = (Real.pi / 2 : ℂ) * (!![3, 0, -1; 0, 2, 0; -1, 0, 2] : Matrix (Fin 3) (Fin 3) ℂ) i j := by
  rw [mom_phi]
  have e : phi j = T ℂ ((j : ℕ) : ℤ) - T ℂ (((j : ℕ) + 2 : ℕ) : ℤ) := rfl
  rw [e, map_sub, map_sub, mom_T, mom_T, mom_T, mom_T]
  fin_cases i <;> fin_cases j <;> (simp; try ring)

theorem fD_apply (d : Fin 3 → ℂ) : wall.fD d = d 0 • phi 0 + d 1 • phi 1 + d 2 • phi 2 := by
  simp [wall, Fintype.linearCombination_apply, Fin.sum_univ_three]

theorem projD_fD (d : Fin 3 → ℂ) : wall.projD (wall.fD d) = d := by
  have hp := pi_ne
  rw [fD_apply]
  ext i
  fin_cases i <;> simp [wall, gram] <;> field_simp <;> ring

theorem projB_fB (b : ℂ) : wall.projB (wall.fB b) = b := by
  have hp := pi_ne
  have : mom psi psi = Real.pi / 2 * (35 / 9) := by
    have h : ∀ p, mom psi p = mom (T ℂ (0 : ℕ)) p - 4 / 3 * mom (T ℂ (2 : ℕ)) p + 1 / 3 * mom (T ℂ (4 : ℕ)) p := fun p => by
      rw [psi, mom_add, mom_sub, mom_smul, mom_smul]
    rw [h]
    simp only [psi, map_add, map_sub, map_smul, mom_T]
    norm_num; ring
  simp [wall, this]
  field_simp
  ring

theorem projC_fC (c : Fin 5 → ℂ) : wall.projC (wall.fC c) = c := by
  have hp := pi_ne
  ext n
  have h : wall.projC (wall.fC c) n = ((if n = 0 then 1 / Real.pi else 2 / Real.pi : ℂ)) *
      ∑ m, c m * (if (m : ℕ) = (n : ℕ) then (if (m : ℕ) = 0 then (Real.pi : ℂ) else Real.pi / 2) else 0) := by
    simp only [← mom_T]
    show _ * mom (T ℂ (n : ℕ)) (Fintype.linearCombination ℂ (fun n : Fin 5 => T ℂ (n : ℕ)) c) = _
    rw [Fintype.linearCombination_apply, map_sum]
    simp only [map_smul, smul_eq_mul]
  rw [h, Finset.sum_eq_single n]
  · by_cases hn : n = 0
    · simp [hn]; field_simp
    · have : (n : ℕ) ≠ 0 := fun h => hn (Fin.ext h)
      simp [hn]; field_simp
  · intro m _ hm
    rw [if_neg fun h => hm (Fin.ext h), mul_zero]
  · simp

theorem fC_apply (c : Fin 5 → ℂ) : wall.fC c = c 0 • T ℂ (0 : ℕ) + c 1 • T ℂ (1 : ℕ) + c 2 • T ℂ (2 : ℕ) + c 3 • T ℂ (3 : ℕ) + c 4 • T ℂ (4 : ℕ) := by
  simp [wall, Fintype.linearCombination_apply, Fin.sum_univ_five]

theorem derivative_fD (d : Fin 3 → ℂ) : wall.fC ![-2 * d 1, -4 * d 0 - 4 * d 2, -6 * d 1, -8 * d 2, 0] = derivative (wall.fD d) := by
  rw [fC_apply, fD_apply]
  simp only [derivative_add, derivative_smul, dphi_zero, dphi_one, dphi_two]
  simp only [Matrix.cons_val_zero, Matrix.cons_val_one, Matrix.cons_val]
  module

theorem wall_exact : wall.Exact where
  projD := projD_fD
  projC := projC_fC
  ctd d := by
    have : wall.ctd d = wall.projC (derivative (wall.fD d)) := rfl
    rw [this, ← derivative_fD, projC_fC]
  chebB b := ⟨![b, 0, -4 / 3 * b, 0, 1 / 3 * b], by
    have : wall.fB b = b • psi := rfl
    rw [fC_apply, this, psi]
    simp only [Matrix.cons_val_zero, Matrix.cons_val_one, Matrix.cons_val]
    module⟩
  chebD d := ⟨![d 0, d 1, d 2 - d 0, -d 1, -d 2], by
    rw [fC_apply, fD_apply]
    simp only [Matrix.cons_val_zero, Matrix.cons_val_one, Matrix.cons_val, phi]
    simp only [Fin.val_zero, Fin.val_one, Fin.val_two]
    norm_num
    module⟩

theorem pts_one : pts 1 = √2 / 2 := by simp [pts, Real.cos_pi_div_four]
theorem pts_two : pts 2 = 0 := by
  have : Real.pi * 2 / 4 = Real.pi / 2 := by ring
  simp [pts, this]
theorem pts_three : pts 3 = -(√2 / 2) := by
  have : Real.pi * 3 / 4 = Real.pi - Real.pi / 4 := by ring
  simp only [pts, Fin.isValue]
  rw [show (((3 : Fin 5) : ℕ) : ℝ) = 3 by norm_num, this, Real.cos_pi_sub, Real.cos_pi_div_four]

theorem sq_half : ((√2 / 2 : ℝ) : ℂ) ^ 2 = 1 / 2 := by
  have : (√2 / 2 : ℝ) ^ 2 = 1 / 2 := by rw [div_pow, Real.sq_sqrt (by norm_num)]; norm_num
  rw [← Complex.ofReal_pow, this]; norm_num

/-- The forward transform inverts the backward transform. -/
theorem round_trip (d : Fin 3 → ℂ) : wall.fwd (fun q => (wall.fD d).eval (wall.x q : ℂ)) = d := by
  have hs := sq_half
  have h0 : ((√2 / 2 : ℝ) : ℂ) ≠ 0 := by
    intro h; rw [h] at hs; norm_num at hs
  have hx : wall.x = pts := rfl
  have hf : ∀ f, wall.fwd f = ![(f 1 + f 3) / 4 + f 2 / 4, (f 1 - f 3) / (4 * pts 1), (f 1 + f 3) / 4 - f 2 / 4] := fun f => rfl
  rw [hf, hx]
  simp only [fD_apply, phi_zero, phi_one, phi_two, pts_one, pts_two, pts_three, eval_add, eval_smul, eval_sub, eval_mul, eval_pow, eval_X,
    eval_neg, eval_ofNat, smul_eq_mul]
  rw [Complex.ofReal_neg]
  generalize ((√2 / 2 : ℝ) : ℂ) = s at hs h0
  have h3 : s ^ 3 = s / 2 := by rw [pow_succ, hs]; ring
  have h4 : s ^ 4 = 1 / 4 := by rw [show s ^ 4 = (s ^ 2) ^ 2 by ring, hs]; norm_num
  have h3' : (-s) ^ 3 = -(s / 2) := by rw [Odd.neg_pow (by decide), h3]
  have h4' : (-s) ^ 4 = 1 / 4 := by rw [Even.neg_pow (by decide), h4]
  ext i
  fin_cases i <;> simp [hs, h3, h4, h3', h4'] <;> field_simp <;> ring

/-- The modes `(1, 0)` and `(-1, 0)`. -/
def pm (b : Bool) : Fin 2 → ℤ := ![sg b, 0]

/-- A roll: `u = 2 psi(x) cos y`, with the streamwise velocity given by continuity. -/
noncomputable def roll (N : Fin 2 → ℕ) : Vel (RModes N) ℂ (Fin 3 → ℂ) where
  u := coeffs N pm fun _ => 1
  v k := coeffs N pm (fun b => -8 / 3 * Complex.I * sg b) k • Pi.single 1 1
  w _ := 0

/-- Streamwise period `2 pi`, spanwise period `l`. -/
noncomputable def sides (l : ℝ) : Fin 2 → ℝ := ![2 * Real.pi, l]

noncomputable def grid (N : Fin 2 → ℕ) (l : ℝ) (z : RModes N) : Channel.Grid (RModes N) :=
  ⟨scaledWaves N (sides l) 0, scaledWaves N (sides l) 1, scaledWaves N (sides l) 0, scaledWaves N (sides l) 1, z⟩

theorem scaled_zero (N : Fin 2 → ℕ) (l : ℝ) (k : RModes N) : scaledWaves N (sides l) 0 k = waves N 0 k := by
  have : Real.pi ≠ 0 := Real.pi_ne_zero
  simp only [scaledWaves, sides, Matrix.cons_val_zero]
  field_simp

/-- The roll satisfies the continuity equation. -/
theorem roll_solenoidal (N : Fin 2 → ℕ) (l : ℝ) (k : RModes N) :
    derivative (wall.fB ((roll N).u k)) + (Complex.I * scaledWaves N (sides l) 0 k) • wall.fD ((roll N).v k)
      + (Complex.I * scaledWaves N (sides l) 1 k) • wall.fD ((roll N).w k) = 0 := by
  have h1 : wall.fB ((roll N).u k) = coeffs N pm (fun _ => 1) k • psi := rfl
  have h2 : wall.fD ((roll N).v k) = coeffs N pm (fun b => -8 / 3 * Complex.I * sg b) k • phi 1 := by
    rw [fD_apply]; simp [roll]
  rw [h1, h2, derivative_smul, dpsi, show (roll N).w k = 0 from rfl, map_zero, smul_zero, add_zero, smul_smul, smul_smul, ← add_smul]
  rw [scaled_zero]
  convert zero_smul ℂ (phi 1)
  simp only [Periodic.coeffs, Finset.sum_mul, Finset.mul_sum, ← Finset.sum_add_distrib]
  refine Finset.sum_eq_zero fun b _ => ?_
  split_ifs with h
  · have : waves N 0 k = sg b := by
      have := congrFun h 0
      simpa [pm, wvec] using this.symm
    rw [this]
    have hs : ((sg b : ℤ) : ℂ) * (sg b : ℤ) = 1 := by cases b <;> simp [sg]
    push_cast
    linear_combination (-8 / 3 * Complex.I ^ 2) * hs - 8 / 3 * Complex.I_sq
  · simp

theorem psi_conj (x : ℝ) : (starRingEnd ℂ) (psi.eval (x : ℂ)) = psi.eval (x : ℂ) := by
  have : psi.eval (x : ℂ) = ((8 / 3 * (1 - x ^ 2) ^ 2 : ℝ) : ℂ) := by rw [psi_eq]; simp
  rw [this, Complex.conj_ofReal]

theorem expz_pm (M : Fin 2 → ℕ) (b : Bool) (p : Periodic.Grid M) : expz M (pm b) p = ph (fun _ => 1) M 0 p ^ sg b := by
  have : pm b = modes (fun _ => 1) pm b := by funext i; simp [modes]
  rw [this, expz_modes]
  rw [Fin.prod_univ_two]
  simp [pm]

/-- The modes `(2, 0)`, `(0, 0)`, `(-2, 0)`. -/
def pm2 (j : Fin 3) : Fin 2 → ℤ := ![2 - 2 * (j : ℤ), 0]

theorem expz_pm2 (M : Fin 2 → ℕ) (j : Fin 3) (p : Periodic.Grid M) : expz M (pm2 j) p = ph (fun _ => 1) M 0 p ^ (2 - 2 * (j : ℤ)) := by
  have : pm2 j = modes (fun _ => 1) pm2 j := by funext i; simp [modes]
  rw [this, expz_modes]
  rw [Fin.prod_univ_two]
  simp [pm2]

/-- The transform of the square of the wall-normal velocity of the roll, at the mode `(2, 0)`. -/
theorem roll_square (N M : Fin 2 → ℕ) (h0 : 5 ≤ N 0) (h1 : 1 ≤ N 1) (hNM : ∀ i, N i ≤ M i) (l : ℝ) (hl : l ≠ 0) (k : RModes N) (hk : wvec N k = ![2, 0]) :
    transform wall (sides l) N M (times (fieldU wall (sides l) (roll N)) (fieldU wall (sides l) (roll N))) k = ![2, 0, -14 / 9] := by
  have hL : ∀ i, sides l i ≠ 0 := by
    intro i; fin_cases i
    · simp [sides, Real.pi_ne_zero]
    · simpa [sides] using hl
  have hN : ∀ i, 0 < N i := by intro i; fin_cases i <;> simp <;> omega
  rw [transform, ← mul_sample, fieldU, ← synth_eq _ hL]
  have hu : ∀ q (p : Periodic.Grid M), ((synth (rspace N M) wall.x (fun k => wall.fB ((roll N).u k)) q p : ℝ) : ℂ)
      = psi.eval (wall.x q : ℂ) * (ph (fun _ => 1) M 0 p + (ph (fun _ => 1) M 0 p)⁻¹) := by
    intro q p
    have : (fun k => (wall.fB ((roll N).u k)).eval (wall.x q : ℂ)) = coeffs N pm fun _ => psi.eval (wall.x q : ℂ) := by
      funext k
      have h1 : wall.fB ((roll N).u k) = coeffs N pm (fun _ => 1) k • psi := rfl
      rw [h1, eval_smul, smul_eq_mul, mul_comm, coeffs_mul]; simp
    rw [synth, this, backward_trig N M pm _ not Bool.not_not _ (fun _ => (psi_conj _).symm)]
    · simp only [trig, Fintype.sum_bool, expz_pm, sg]
      simp; ring
    · intro b i; cases b <;> fin_cases i <;> simp [pm, sg]
      all_goals omega
    · intro b; funext i; fin_cases i <;> simp [pm, sg_not]
  have hf : ∀ q, (rspace N M).forward ((synth (rspace N M) wall.x (fun k => wall.fB ((roll N).u k)) * synth (rspace N M) wall.x (fun k => wall.fB ((roll N).u k))) q) k
      = psi.eval (wall.x q : ℂ) ^ 2 := by
    intro q
    rw [forward_trig N M hNM pm2 (fun j => (if j = 1 then 2 else 1) * psi.eval (wall.x q : ℂ) ^ 2) _ _ _ hN]
    · rw [Periodic.coeffs, Fin.sum_univ_three, hk]
      have e0 : pm2 0 = ![2, 0] := by simp [pm2]
      have e1 : pm2 1 ≠ ![2, 0] := fun h => by have := congrFun h 0; simp [pm2] at this
      have e2 : pm2 2 ≠ ![2, 0] := fun h => by have := congrFun h 0; simp [pm2] at this
      rw [if_pos e0, if_neg e1, if_neg e2]; simp
    · intro j i; fin_cases j <;> fin_cases i <;> simp [pm2]
      all_goals omega
    · intro p
      have hph := ph_ne_zero (fun _ => 1) M 0 p
      simp only [Pi.mul_apply]
      push_cast
      rw [hu q p]
      simp only [trig, Fin.sum_univ_three, expz_pm2]
      simp only [Fin.val_zero, Fin.val_one, Fin.val_two, show ((2 : Fin 3) = 1) = False by decide, if_false]
      norm_num
      field_simp
      ring
  unfold fwdD
  simp only [hf]
  have hf : ∀ f, wall.fwd f = ![(f 1 + f 3) / 4 + f 2 / 4, (f 1 - f 3) / (4 * pts 1), (f 1 + f 3) / 4 - f 2 / 4] := fun f => rfl
  have hx : wall.x = pts := rfl
  have hs := sq_half
  rw [hf, hx, psi_eq]
  simp only [pts_one, pts_two, pts_three, eval_smul, eval_pow, eval_sub, eval_one, eval_X, Complex.ofReal_neg, neg_sq, hs, smul_eq_mul]
  norm_num

/-- C73 is false of KMM's divergence form: the wall-normal component is not minus the divergence of the momentum flux.  The roll is a
solenoidal velocity field, on any periodic grid with at least five streamwise points, with or without padding. -/
theorem C73_divergence_false (N M : Fin 2 → ℕ) (h0 : 5 ≤ N 0) (h1 : 1 ≤ N 1) (hNM : ∀ i, N i ≤ M i) (l : ℝ) (hl : l ≠ 0) (z : RModes N) (g : RModes N → Fin 3 → ℂ) :
    let L := sides l
    let U := roll N
    (convection .divergence wall (rspace N M) (grid N l z) U g).c0 ≠
      minusDivergence wall L N M (times (fieldU wall L U) (fieldU wall L U)) (times (fieldV wall L U) (fieldU wall L U))
        (times (fieldW wall L U) (fieldU wall L U)) := by
  intro L U h
  have hL : ∀ i, L i ≠ 0 := by
    intro i; fin_cases i
    · simp [L, sides, Real.pi_ne_zero]
    · simpa [L, sides] using hl
  obtain ⟨k, hk⟩ := exists_trig_mode N ![2, 0] (by intro i; fin_cases i <;> simp <;> omega) (by simp [Fin.last])
  have hc : ∀ f g, times f g = times g f := fun f g => by funext x y z; exact mul_comm _ _
  have h := congrFun h k
  have hsq := roll_square N M h0 h1 hNM l hl k hk
  rw [hc (fieldV wall L U), hc (fieldW wall L U)] at h
  simp only [convection, scaleVec, divergenceConvection, velocity, Matrix.cons_val_zero, Matrix.cons_val_one, Matrix.cons_val, bwdB, bwdD,
      synth_eq L hL, mul_sample, ik, minusDivergence, Pi.zero_apply, zero_add, neg_smul, one_smul, grid, neg_inj] at h
  have h := add_right_cancel (add_right_cancel h)
  have e : fwdD wall (rspace N M) (sample L M wall.x (times (fieldOf N L fun k => wall.fB (U.u k)) (fieldOf N L fun k => wall.fB (U.u k)))) k = ![2, 0, -14 / 9] := hsq
  rw [e, hsq] at h
  have h := congrFun h 1
  have e1 : ∀ b, wall.toD b 1 = 0 := fun b => rfl
  have e2 : ∀ p, wall.projD p 1 = 1 / Real.pi * mom (phi 1) p := fun p => rfl
  rw [e1, e2, ← derivative_fD, fC_apply, mom_phi] at h
  simp only [map_add, map_smul, mom_T] at h
  have hp := pi_ne
  have v2 : (![2, 0, -14 / 9] : Fin 3 → ℂ) 2 = -14 / 9 := rfl
  have v3 : ∀ a b c d e : ℂ, ![a, b, c, d, e] 3 = d := fun _ _ _ _ _ => rfl
  simp only [v2, v3] at h
  norm_num at h
  field_simp at h
  norm_num at h

theorem slope_fB (b : ℂ) : ∃ d, wall.fD d = derivative (wall.fB b) :=
  ⟨Pi.single 1 (-8 / 3 * b), by
    have : wall.fB b = b • psi := rfl
    rw [this, fD_apply, derivative_smul, dpsi]
    simp [smul_smul, mul_comm]⟩

/-- The five point direction of the coupled solvers. -/
noncomputable def wallD : Wall (Fin 3 → ℂ) (Fin 3 → ℂ) (Fin 5 → ℂ) (Fin 5) :=
  { wall with fB := wall.fD, projB := wall.projD, toB := LinearMap.id, toD := LinearMap.id }

theorem wallD_exact : wallD.Exact := ⟨wall_exact.projD, wall_exact.projC, wall_exact.ctd, wall_exact.chebD, wall_exact.chebD⟩

theorem wallD_same : wallD.Same := ⟨rfl, rfl, fun _ => rfl, fun _ => rfl⟩

theorem sides_ne {l : ℝ} (hl : l ≠ 0) (i : Fin 2) : sides l i ≠ 0 := by
  fin_cases i
  · simp [sides, Real.pi_ne_zero]
  · simpa [sides] using hl

/- Non-trivial cases: the roll, on a padded grid; in the coupled solvers its wall-normal part is `phi_0 - phi_2/3`. -/
example (z : RModes ![8, 1]) := C73_standard (M := ![12, 1]) wall wall_exact (sides 4) (sides_ne (by norm_num)) (grid _ 4 z) rfl rfl (roll _) 0 fun _ => slope_fB _
example (z : RModes ![8, 1]) := C73_vortex (M := ![12, 1]) wall wall_exact (sides 4) (sides_ne (by norm_num)) (grid _ 4 z) rfl rfl (roll _) _ rfl
example (z : RModes ![8, 1]) := C73_divergence_partial (M := ![12, 1]) wall (sides 4) (sides_ne (by norm_num)) (grid _ 4 z) rfl rfl (roll _) 0
example (z : RModes ![8, 1]) := C73_skew wall (rspace ![8, 1] ![12, 1]) (grid _ 4 z) (roll _) 0

/-- The roll in the basis of the coupled solvers. -/
noncomputable def rollD (N : Fin 2 → ℕ) : Vel (RModes N) (Fin 3 → ℂ) (Fin 3 → ℂ) :=
  { roll N with u := fun k => (roll N).u k • ![1, 0, -1 / 3] }

theorem psi_phi : wall.fD ![1, 0, -1 / 3] = psi := by
  rw [fD_apply, psi_eq, phi_zero, phi_one, phi_two]
  refine Polynomial.funext fun x => ?_
  simp; ring

theorem slope_rollD (N : Fin 2 → ℕ) (k : RModes N) : ∃ d, wallD.fD d = derivative (wallD.fB ((rollD N).u k)) := by
  obtain ⟨d, hd⟩ := slope_fB ((roll N).u k)
  refine ⟨d, hd.trans ?_⟩
  show derivative ((roll N).u k • psi) = derivative (wall.fD ((roll N).u k • ![1, 0, -1 / 3]))
  rw [LinearMap.map_smul wall.fD, psi_phi]

example (z : RModes ![8, 1]) := C73_coupled_standard (M := ![12, 1]) wallD wallD_exact (sides 4) (sides_ne (by norm_num)) (grid _ 4 z) rfl rfl (rollD _) (slope_rollD _)
example (z : RModes ![8, 1]) := C73_coupled_vortex (M := ![12, 1]) wallD wallD_exact wallD_same (sides 4) (sides_ne (by norm_num)) (grid _ 4 z) rfl rfl (rollD _)
example (z : RModes ![8, 1]) := C73_coupled_divergence (M := ![12, 1]) wallD wallD_same (sides 4) (sides_ne (by norm_num)) (grid _ 4 z) rfl rfl (rollD _)

/-- Coefficients of `2 psi(x) cos y`. -/
noncomputable def flux (N : Fin 2 → ℕ) (k : RModes N) : Fin 3 → ℂ := (rollD N).u k

theorem coeffs_one (N : Fin 2 → ℕ) (k : RModes N) : (roll N).u k = if wvec N k = pm true ∨ wvec N k = pm false then 1 else 0 := by
  have hne : pm true ≠ pm false := fun h => by have := congrFun h 0; simp [pm, sg] at this
  simp only [roll, Periodic.coeffs, Fintype.sum_bool]
  by_cases h1 : wvec N k = pm true
  · simp [h1, hne.symm]
  · by_cases h2 : wvec N k = pm false
    · simp [h2, hne]
    · simp [h1, h2, Ne.symm h1, Ne.symm h2]

theorem psi_map : psi.map (starRingEnd ℂ) = psi := by
  rw [psi_eq, Polynomial.map_smul]
  simp [map_ofNat]

/- The flux `(2 psi cos y, 2 psi cos y, 2 psi cos y)` is resolved. -/
example := C73_divergence_resolved (N := ![5, 1]) (M := ![8, 1]) wall wall_exact (sides 4) (sides_ne (by norm_num)) _ _ _
  (flux _) (flux _) (flux _) rfl rfl rfl (slope_rollD _) round_trip
  (by intro i; fin_cases i <;> simp) (by intro i; fin_cases i <;> simp)
  (by
    intro a ha k hk
    have : a = flux ![5, 1] := by simpa using ha
    rw [this]
    show (roll ![5, 1]).u k • _ = 0
    rw [coeffs_one, if_neg, zero_smul]
    intro h
    have : nyquistMask ![5, 1] k = true := by
      rw [nyquistMask_iff]
      intro i
      have e : ∀ i, waves ![5, 1] i k = pm true i ∨ waves ![5, 1] i k = pm false i := fun i =>
        h.imp (fun h => congrFun h i) fun h => congrFun h i
      fin_cases i
      · rcases e 0 with e | e <;> simp [pm, sg] at e <;> simp [e]
      · rcases e 1 with e | e <;> simp [pm, sg] at e <;> simp [e]
    rw [this] at hk; simp at hk)
  (by
    intro a ha k k' hk
    have : a = flux ![5, 1] := by simpa using ha
    rw [this]
    have e : ∀ k, wall.fD (flux ![5, 1] k) = (roll ![5, 1]).u k • psi := fun k => by
      show wall.fD ((roll ![5, 1]).u k • _) = _
      rw [LinearMap.map_smul wall.fD, psi_phi]
    rw [e, e, Polynomial.map_smul, psi_map, coeffs_one, coeffs_one]
    have hw : wvec ![5, 1] k' = -wvec ![5, 1] k := funext hk
    have hp : pm false = -pm true := by funext i; fin_cases i <;> simp [pm, sg]
    rw [hw, hp]
    have : (-wvec ![5, 1] k = pm true ∨ -wvec ![5, 1] k = -pm true) ↔ (wvec ![5, 1] k = pm true ∨ wvec ![5, 1] k = -pm true) := by
      rw [neg_inj, neg_eq_iff_eq_neg, or_comm]
    simp only [this]
    split <;> simp)

end SpectralDNS.Channel.Five

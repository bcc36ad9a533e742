import Verif.Model.ChebPoissonNeumann
import Verif.Spec.ChebPoissonNeumann
import Verif.Lemmas.ChebPoisson
import Mathlib.LinearAlgebra.Matrix.Block

/-! # The stand-alone Neumann solver -/

namespace SpectralDNS.Sandbox.Neumann

open Polynomial Polynomial.Chebyshev Real Finset Channel ChebWeight

/-- The basis functions. -/
noncomputable def nphi (k : ℕ) : ℝ[X] := T ℝ (k : ℤ) - ratio k • T ℝ ((k + 2 : ℕ) : ℤ)

theorem points_node (N j : ℕ) : points N j = node N j := rfl

theorem node_eq (N j : ℕ) : node N j = quadPoint .GL N j := rfl

theorem weight_eq (N j : ℕ) : weight N j = quadWeight .GL N j := rfl

theorem weights_eq (N j : ℕ) (hN : 2 ≤ N) : weights N j = weight N j := by
  rw [weights, weight]
  simp only [zero_add]
  by_cases h1 : j = N - 1
  · subst h1
    rw [Function.update_self, Function.update_of_ne (by omega), if_pos (Or.inr rfl), div_div, mul_comm]
  · rw [Function.update_of_ne h1]
    by_cases h0 : j = 0
    · subst h0
      rw [Function.update_self, if_pos (Or.inl rfl), div_div, mul_comm]
    · rw [Function.update_of_ne h0, if_neg (by tauto)]

theorem T_node (N k j : ℕ) : (T ℝ (k : ℤ)).eval (node N j) = cos (π * k * j / (N - 1)) := by
  rw [node, T_real_cos]
  congr 1
  push_cast
  ring

theorem cos_end (N j : ℕ) (hN : 2 ≤ N) : cos (π * j * ((N - 1 : ℕ) : ℝ) / (N - 1)) = (-1) ^ j := by
  have h1 : (N : ℝ) - 1 ≠ 0 := by
    have : (2 : ℝ) ≤ N := by exact_mod_cast hN
    linarith
  rw [Nat.cast_sub (by omega), Nat.cast_one, mul_div_assoc, div_self h1, mul_one, mul_comm, cos_nat_mul_pi]

theorem sum_ends (N : ℕ) (hN : 2 ≤ N) (g : ℕ → ℝ) : ∑ j ∈ range N, g j = g 0 + g (N - 1) + ∑ j ∈ Ico 1 (N - 1), g j := by
  obtain ⟨n, rfl⟩ : ∃ n, N = n + 1 := ⟨N - 1, by omega⟩
  rw [sum_range_succ, range_eq_Ico, sum_eq_sum_Ico_succ_bot (by omega), Nat.add_sub_cancel]
  ring

theorem dct1_quad (N : ℕ) (hN : 2 ≤ N) (f : ℕ → ℝ) (k : ℕ) :
    dct1 N f k * (π / ((N - 1) * 2)) = ∑ j ∈ range N, weight N j * f j * (T ℝ (k : ℤ)).eval (node N j) := by
  have h1 : (N : ℝ) - 1 ≠ 0 := by
    have : (2 : ℝ) ≤ N := by exact_mod_cast hN
    linarith
  rw [sum_ends N hN, dct1]
  simp only [T_node]
  have hs : ∑ j ∈ Ico 1 (N - 1), weight N j * f j * cos (π * k * j / (N - 1)) = π / (N - 1) * ∑ j ∈ Ico 1 (N - 1), f j * cos (π * k * j / (N - 1)) := by
    rw [mul_sum]
    refine sum_congr rfl fun j hj => ?_
    have := mem_Ico.1 hj
    rw [weight, if_neg (by omega), mul_assoc]
  rw [cos_end N k hN, hs, weight, weight, if_pos (Or.inl rfl), if_pos (Or.inr rfl)]
  simp only [Nat.cast_zero, mul_zero, zero_div, cos_zero]
  field_simp

/-- `fastShenScalarNeumann` is the quadrature against the basis. -/
theorem scalar_eq (N : ℕ) (hN : 2 ≤ N) (f : ℕ → ℝ) (i : ℕ) :
    fastShenScalarNeumann N f i = ∑ j ∈ range N, weight N j * f j * sample N (nphi (i + 1)) j := by
  rw [fastShenScalarNeumann]
  simp only []
  rw [dct1_quad N hN, dct1_quad N hN, mul_sum, ← sum_sub_distrib]
  refine sum_congr rfl fun j _ => ?_
  rw [sample, nphi, eval_sub, eval_smul, smul_eq_mul]
  ring

theorem scalar_sample (N : ℕ) (hN : 2 ≤ N) (p : ℝ[X]) (i : ℕ) : fastShenScalarNeumann N (sample N p) i = quadrature .GL N (p * nphi (i + 1)) := by
  rw [scalar_eq N hN, quadrature_apply]
  exact sum_congr rfl fun j _ => by rw [eval_mul, ← weight_eq, ← node_eq, sample, sample, mul_assoc]

theorem V_eq (N i j : ℕ) : V N i j = sample N (nphi (i + 1)) j := by
  rw [V, sample, nphi, eval_sub, eval_smul, smul_eq_mul, points_node]

/-- The function with coefficients `c`. -/
noncomputable def shen (N : ℕ) (c : ℕ → ℝ) : ℝ[X] := ∑ i ∈ range (N - 3), c i • nphi (i + 1)

theorem shen_expand (n : ℕ) (c : ℕ → ℝ) : shen (n + 3) c = expand (fun j => nphi (j + 1)) (fun k : Fin n => c k) := by
  rw [shen, expand, Nat.add_sub_cancel, sum_range]

theorem wHat_eq (n : ℕ) (c : ℕ → ℝ) (k : ℕ) (hk : k < n + 5) :
    wHat (n + 5) c k = (if 1 ≤ k ∧ k < n + 3 then c (k - 1) else 0) - (if k < 3 then 0 else ratio (k - 2) * c (k - 3)) := by
  rw [wHat]
  simp only [show n + 5 - 2 = n + 3 from rfl, show n + 5 - 1 = n + 4 from rfl, show n + 5 - 4 = n + 1 from rfl, show n + 5 - 3 = n + 2 from rfl]
  rcases (show k < n + 3 ∨ k = n + 3 ∨ k = n + 4 by omega) with h | rfl | rfl
  · rw [Function.update_of_ne (by omega), Function.update_of_ne (by omega), if_pos h]
    congr 1
    · by_cases h0 : k = 0
      · rw [if_pos h0, if_neg (by omega)]
      · rw [if_neg h0, if_pos (by omega)]
    · by_cases h2 : k < 2
      · rw [if_pos h2, if_pos (by omega)]
      · rw [if_neg h2]
        by_cases h3 : k < 3
        · rw [if_pos h3, if_pos (by omega), mul_zero]
        · rw [if_neg h3, if_neg (by omega), show k - 2 - 1 = k - 3 by omega]
  · rw [Function.update_of_ne (by omega), Function.update_self, if_neg (by omega), if_neg (by omega), if_neg (by omega)]
    simp
  · rw [Function.update_self, if_neg (by omega), if_neg (by omega), if_neg (by omega)]
    simp

theorem series_wHat (n : ℕ) (c : ℕ → ℝ) : series (n + 5) (wHat (n + 5) c) = shen (n + 5) c := by
  rw [series, sum_congr rfl fun k hk => by rw [wHat_eq n c k (mem_range.1 hk), sub_smul], sum_sub_distrib, shen]
  simp only [show n + 5 - 3 = n + 2 from rfl, nphi, smul_sub, sum_sub_distrib]
  congr 1
  · rw [sum_range_succ, sum_range_succ, sum_range_succ', if_neg (by omega), if_neg (by omega), if_neg (by omega), zero_smul, add_zero, zero_smul,
      add_zero, zero_smul, add_zero]
    exact sum_congr rfl fun k hk => by rw [if_pos ⟨by omega, by have := mem_range.1 hk; omega⟩, Nat.add_sub_cancel]
  · rw [sum_range_succ' _ (n + 4), sum_range_succ' _ (n + 3), sum_range_succ' _ (n + 2), if_pos (by omega), if_pos (by omega), if_pos (by omega),
      zero_smul, add_zero, zero_smul, add_zero, zero_smul, add_zero]
    refine sum_congr rfl fun k _ => ?_
    rw [if_neg (by omega), show k + 1 + 1 + 1 - 2 = k + 1 by omega, show k + 1 + 1 + 1 - 3 = k by omega, smul_smul, mul_comm]

theorem ifast_eq (n : ℕ) (c : ℕ → ℝ) (j : ℕ) : ifastShenTransNeumann (n + 5) c j = sample (n + 5) (shen (n + 5) c) j := by
  rw [ifastShenTransNeumann, sample, ← series_wHat, series, eval_finsetSum, sum_ends _ (by omega)]
  simp only [eval_smul, smul_eq_mul, T_node, dct1]
  have h0 : wHat (n + 5) c 0 = 0 := by rw [wHat_eq n c 0 (by omega)]; simp
  have hc : cos (π * ((n + 5 - 1 : ℕ) : ℝ) * j / (((n + 5 : ℕ) : ℝ) - 1)) = (-1) ^ j := by
    rw [← cos_end (n + 5) j (by omega)]; congr 1; ring
  have hs : ∑ x ∈ Ico 1 (n + 5 - 1), wHat (n + 5) c x * cos (π * x * j / (((n + 5 : ℕ) : ℝ) - 1)) =
      ∑ x ∈ Ico 1 (n + 5 - 1), wHat (n + 5) c x * cos (π * j * x / (((n + 5 : ℕ) : ℝ) - 1)) :=
    sum_congr rfl fun x _ => by congr 2; ring
  rw [h0, hc, hs]
  split_ifs with h
  · rw [Even.neg_one_pow (Nat.even_iff.2 h)]; norm_num; ring
  · rw [Odd.neg_one_pow (Nat.odd_iff.2 (by omega))]; norm_num; ring

/-! ## The matrices -/

theorem wint_U_T (i m : ℕ) : wint (U ℝ (m : ℤ) * T ℝ (i : ℤ)) = if i ≤ m ∧ (m - i) % 2 = 0 then π else 0 := by
  induction m using Nat.twoStepInduction with
  | zero =>
    have := wint_TT 0 i
    simp only [Nat.cast_zero, T_zero, one_mul] at this
    rw [Nat.cast_zero, U_zero, one_mul, this]
    by_cases h : i = 0
    · subst h; simp
    · rw [if_neg (Ne.symm h), if_neg (by omega)]
  | one =>
    have := wint_TT 1 i
    simp only [Nat.cast_one, T_one] at this
    rw [Nat.cast_one, U_one, mul_assoc, wint_two, this]
    by_cases h : i = 1
    · subst h; simp; ring
    · rw [if_neg (Ne.symm h), if_neg (by omega), mul_zero]
  | more m ih1 _ =>
    rw [U_succ_two, add_mul, map_add, ih1, mul_assoc, wint_two, wint_TT]
    by_cases h : m + 2 = i
    · subst h
      rw [if_neg (by omega), if_pos rfl, if_neg (by omega), if_pos (by omega)]; ring
    · rw [if_neg h, mul_zero, add_zero]
      by_cases h1 : i ≤ m ∧ (m - i) % 2 = 0
      · rw [if_pos h1, if_pos (by omega)]
      · rw [if_neg h1, if_neg (by omega)]

theorem wint_dU_T (i m : ℕ) : wint (derivative (U ℝ (m : ℤ)) * T ℝ (i : ℤ)) =
    if i < m ∧ (m - 1 - i) % 2 = 0 then π / 2 * (((m : ℝ) + 1) ^ 2 - i ^ 2) else 0 := by
  induction m using Nat.twoStepInduction with
  | zero => simp
  | one =>
    have := wint_U_T i 0
    simp only [Nat.cast_zero, U_zero, one_mul] at this
    rw [Nat.cast_one, U_one, derivative_mul, derivative_X, show derivative (2 : ℝ[X]) = 0 from derivative_ofNat 2, zero_mul, zero_add,
      mul_one, wint_two, this]
    by_cases h : i = 0
    · subst h; norm_num; ring
    · rw [if_neg (by omega), if_neg (by omega), mul_zero]
  | more m ih1 _ =>
    rw [dU_succ_two, add_mul, map_add, ih1, smul_mul_assoc, map_smul, wint_U_T, smul_eq_mul]
    by_cases h : m + 1 = i
    · subst h
      rw [if_neg (by omega), if_pos ⟨le_rfl, by omega⟩, if_pos ⟨by omega, by omega⟩]
      push_cast; ring
    · by_cases h1 : i < m ∧ (m - 1 - i) % 2 = 0
      · rw [if_pos h1, if_pos (by omega), if_pos (by omega)]
        push_cast; ring
      · by_cases h2 : i ≤ m + 1 ∧ (m + 1 - i) % 2 = 0
        · exfalso; omega
        · rw [if_neg h1, if_neg h2, if_neg (by omega), mul_zero, add_zero]

theorem wint_U_nphi (i m : ℕ) : wint (U ℝ (m : ℤ) * nphi i) =
    if m = i then π else if i < m ∧ (m - i) % 2 = 0 then 4 * π * (i + 1) / (i + 2) ^ 2 else 0 := by
  rw [nphi, mul_sub, map_sub, mul_smul_comm, map_smul, wint_U_T, wint_U_T, smul_eq_mul, ratio]
  have hi : (i : ℝ) + 2 ≠ 0 := by positivity
  by_cases h : m = i
  · subst h
    rw [if_pos ⟨le_rfl, by omega⟩, if_neg (by omega), if_pos rfl]; ring
  · rw [if_neg h]
    by_cases h1 : i < m ∧ (m - i) % 2 = 0
    · rw [if_pos (by omega), if_pos (by omega), if_pos h1]
      field_simp
      ring
    · rw [if_neg (by omega), if_neg (by omega), if_neg h1]; ring

theorem wint_dU_nphi (i m : ℕ) : wint (derivative (U ℝ (m : ℤ)) * nphi i) =
    if i < m ∧ (m - 1 - i) % 2 = 0 then 2 * π * (m + 1) ^ 2 * (i + 1) / (i + 2) ^ 2 else 0 := by
  rw [nphi, mul_sub, map_sub, mul_smul_comm, map_smul, wint_dU_T, wint_dU_T, smul_eq_mul, ratio]
  have hi : (i : ℝ) + 2 ≠ 0 := by positivity
  by_cases h1 : i < m ∧ (m - 1 - i) % 2 = 0
  · rw [if_pos h1, if_pos h1]
    by_cases h2 : i + 2 < m
    · rw [if_pos (by omega)]
      push_cast
      field_simp
      ring
    · rw [if_neg (by omega), show m = i + 1 by omega]
      push_cast
      field_simp
      ring
  · rw [if_neg h1, if_neg (by omega), if_neg h1]; ring

theorem nphi_second (j : ℕ) : derivative^[2] (nphi (j + 1)) =
    (2 * ((j : ℝ) + 1) / (j + 3)) • derivative (U ℝ (j : ℤ)) - (2 * ((j : ℝ) + 1) ^ 2 * (j + 2) / (j + 3)) • U ℝ ((j + 1 : ℕ) : ℤ) := by
  have hj : (j : ℝ) + 3 ≠ 0 := by positivity
  have h1 : derivative (nphi (j + 1)) = ((j : ℝ) + 1) • U ℝ (j : ℤ) - (((j : ℝ) + 1) ^ 2 / (j + 3)) • U ℝ ((j + 2 : ℕ) : ℤ) := by
    rw [nphi, derivative_sub, derivative_smul, T_derivative_eq_U, T_derivative_eq_U, ratio, show ((j + 1 : ℕ) : ℤ) - 1 = j by push_cast; ring,
      show ((j + 1 + 2 : ℕ) : ℤ) - 1 = ((j + 2 : ℕ) : ℤ) by push_cast; ring]
    have e1 : (((j + 1 : ℕ) : ℤ) : ℝ[X]) = Polynomial.C ((j : ℝ) + 1) := by simp
    have e2 : (((j + 1 + 2 : ℕ) : ℤ) : ℝ[X]) = Polynomial.C ((j : ℝ) + 3) := by
      rw [map_add, map_natCast, map_ofNat]; push_cast; ring
    rw [e1, e2, ← smul_eq_C_mul, ← smul_eq_C_mul, smul_smul]
    congr 2
    push_cast
    field_simp
    ring
  simp only [Function.iterate_succ, Function.iterate_zero, Function.comp_apply, id_eq]
  rw [h1, derivative_sub, derivative_smul, derivative_smul, dU_succ_two, smul_add, smul_smul]
  have e : (2 * ((j : ℝ) + 1) / (j + 3)) = ((j : ℝ) + 1) - ((j : ℝ) + 1) ^ 2 / (j + 3) := by field_simp; ring
  have e2 : (2 * ((j : ℝ) + 1) ^ 2 * (j + 2) / (j + 3)) = ((j : ℝ) + 1) ^ 2 / (j + 3) * (2 * (j + 2)) := by field_simp
  rw [e, e2]
  module

/-- The entries of the matrix of `solve_neumann`, with the numbers of the basis functions. -/
noncomputable def stiff (i j : ℕ) : ℝ :=
  if i = j then -2 * π * (i + 1) * i ^ 2 / (i + 2) else if i < j ∧ (j - i) % 2 = 0 then -4 * π * j ^ 2 * (i + 1) / (i + 2) ^ 2 else 0

theorem wint_stiff (i j : ℕ) : wint (derivative^[2] (nphi (j + 1)) * nphi (i + 1)) = stiff (i + 1) (j + 1) := by
  rw [nphi_second, sub_mul, map_sub, smul_mul_assoc, smul_mul_assoc, map_smul, map_smul, wint_U_nphi, wint_dU_nphi, smul_eq_mul, smul_eq_mul, stiff]
  have hi : (i : ℝ) + 3 ≠ 0 := by positivity
  have hj : (j : ℝ) + 3 ≠ 0 := by positivity
  by_cases h : i = j
  · subst h
    rw [if_neg (by omega), if_pos rfl, if_pos rfl]
    push_cast
    field_simp
    ring
  · rw [if_neg (by omega : ¬j + 1 = i + 1), if_neg (by omega : ¬i + 1 = j + 1)]
    by_cases h1 : i < j ∧ (j - i) % 2 = 0
    · rw [if_pos (by omega), if_pos (by omega), if_pos (by omega)]
      push_cast
      rw [show (i : ℝ) + 1 + 2 = i + 3 by ring]
      field_simp
      ring
    · rw [if_neg (by omega), if_neg (by omega), if_neg (by omega)]; ring

theorem bandLoop (N : ℕ) (L : List ℕ) (hL : ∀ i ∈ L, i ≤ N - 3) (hN : 3 ≤ N) (A : ℕ → ℕ → ℝ) (r j : ℕ) : L.foldl (bandStep N) A r j =
    if ∃ i ∈ L, r = N - 2 - i - 1 ∧ i ≤ j then
      -4 * π * (j : ℝ) ^ 2 * (((j - (N - 3 - r) : ℕ) : ℝ) + 1) / (((j - (N - 3 - r) : ℕ) : ℝ) + 2) ^ 2 else A r j := by
  induction L generalizing A with
  | nil => simp
  | cons a L ih =>
    rw [List.foldl_cons, ih fun i hi => hL i (List.mem_cons_of_mem _ hi)]
    have ha := hL a List.mem_cons_self
    by_cases h : ∃ i ∈ L, r = N - 2 - i - 1 ∧ i ≤ j
    · rw [if_pos h, if_pos]
      obtain ⟨i, hi, h⟩ := h
      exact ⟨i, List.mem_cons_of_mem _ hi, h⟩
    · rw [if_neg h, bandStep]
      by_cases h2 : r = N - 2 - a - 1 ∧ a ≤ j
      · rw [if_pos h2, if_pos ⟨a, List.mem_cons_self, h2⟩, show N - 3 - r = a by omega, Nat.cast_sub h2.2, sub_add_cancel]
      · rw [if_neg h2, if_neg]
        rintro ⟨i, hi, hr⟩
        rcases List.mem_cons.1 hi with rfl | hi
        · exact h2 hr
        · exact h ⟨i, hi, hr⟩

theorem mem_evens (N d : ℕ) (hd : d ≤ N - 4) : d ∈ List.range' 2 ((N - 4) / 2) 2 ↔ 2 ≤ d ∧ d % 2 = 0 := by
  rw [List.mem_range']
  constructor
  · rintro ⟨i, hi, rfl⟩; omega
  · rintro ⟨h1, h2⟩; exact ⟨(d - 2) / 2, by omega, by omega⟩

theorem evens_le (N d : ℕ) (h : d ∈ List.range' 2 ((N - 4) / 2) 2) : d ≤ N - 4 := by
  rw [List.mem_range'] at h
  obtain ⟨i, hi, rfl⟩ := h
  omega

theorem band_stiff (N : ℕ) (hN : 4 ≤ N) (i j : ℕ) (hj : j < N - 3) :
    bandMatrix (N - 4) (fun r j => bandStorage N (r + 1) (j + 1)) i j = stiff (i + 1) (j + 1) := by
  have hle : ∀ d ∈ List.range' 2 ((N - 4) / 2) 2, d ≤ N - 3 := fun d hd => by have := evens_le N d hd; omega
  rw [bandMatrix]
  by_cases h : i ≤ j
  · rw [if_pos ⟨h, by omega⟩, bandStorage, bandLoop N _ hle (by omega), stiff]
    by_cases hd : i = j
    · subst hd
      rw [if_neg, if_pos (by omega), if_pos rfl]
      rintro ⟨l, hl, h1, -⟩
      have := evens_le N l hl
      have := (mem_evens N l this).1 hl
      omega
    · rw [if_neg (by omega : ¬i + 1 = j + 1)]
      by_cases h2 : i < j ∧ (j - i) % 2 = 0
      · rw [if_pos ⟨j - i, (mem_evens N _ (by omega)).2 (by omega), by omega, by omega⟩, if_pos (by omega),
          show j + 1 - (N - 3 - (N - 4 + i - j + 1)) = i + 1 by omega]
      · rw [if_neg, if_neg (by omega), if_neg (by omega)]
        rintro ⟨l, hl, h1, -⟩
        have h3 := evens_le N l hl
        have := (mem_evens N l h3).1 hl
        omega
  · rw [if_neg (by omega), stiff, if_neg (by omega), if_neg (by omega)]

theorem solve_eq (N : ℕ) (hN : 4 ≤ N) (f : ℕ → ℝ) : solveNeumann N f = linsolve (N - 3) (fun i j => stiff (i + 1) (j + 1)) f :=
  linsolve_congr _ _ _ _ fun i _ j hj => band_stiff N hN i j hj

theorem stiff_det (m : ℕ) : (Matrix.of fun i j : Fin m => stiff (i + 1) (j + 1)).det ≠ 0 := by
  have ht : (Matrix.of fun i j : Fin m => stiff (i + 1) (j + 1)).IsUpperTriangular := by
    intro i j hij
    have hij : (j : ℕ) < i := hij
    rw [Matrix.of_apply, stiff, if_neg (by omega), if_neg (by omega)]
  rw [Matrix.det_of_isUpperTriangular ht, prod_ne_zero_iff]
  intro i _
  rw [Matrix.of_apply, stiff, if_pos rfl]
  have := pi_ne_zero
  positivity

theorem degree_nphi (j : ℕ) : (nphi (j + 1)).degree = (j + 3 : ℕ) := by
  have hr : ratio (j + 1) ≠ 0 := by rw [ratio]; positivity
  rw [nphi, degree_sub_eq_right_of_degree_lt]
  · rw [degree_smul_of_smul_regular _ (IsSMulRegular.of_ne_zero hr), degree_T]; rfl
  · rw [degree_smul_of_smul_regular _ (IsSMulRegular.of_ne_zero hr), degree_T, degree_T]
    exact_mod_cast (by omega : j + 1 < j + 1 + 2)

theorem stiff_entry (n : ℕ) : (Matrix.of fun i j : Fin (n + 2) => stiff (i + 1) (j + 1)) =
    entry .GL (n + 5) (fun j => nphi (j + 1)) (fun j => nphi (j + 1)) 2 (n + 2) (n + 2) := by
  have hdeg : ∀ j : Fin (n + 2), (nphi (j + 1)).degree < ((n + 5 : ℕ) : WithBot ℕ) := fun j => by
    rw [degree_nphi]
    exact_mod_cast (by have := j.2; omega : (j : ℕ) + 3 < n + 5)
  ext i j
  rw [entry, quad_exact_form .GL _ 2 (by omega) (by omega) _ _ (hdeg j) (hdeg i), wint_stiff, Matrix.of_apply]

/-- Inner products of the basis functions, with both quadratures. -/
theorem quad_mass (q : Quad) (n i j : ℕ) (hi : i < n + 2) (hj : j < n + 2) : quadrature q (n + 5) (nphi (j + 1) * nphi (i + 1)) =
    if i = j then π / 2 * (1 + ratio (i + 1) ^ 2 * ck (decide (q = .GL)) (n + 5) (i + 3))
    else if i = j + 2 then -(π / 2) * ratio (j + 1) else if j = i + 2 then -(π / 2) * ratio (i + 1) else 0 := by
  have e : nphi (j + 1) * nphi (i + 1) = T ℝ ((j + 1 : ℕ) : ℤ) * T ℝ ((i + 1 : ℕ) : ℤ)
      - ratio (i + 1) • (T ℝ ((j + 1 : ℕ) : ℤ) * T ℝ ((i + 3 : ℕ) : ℤ)) - ratio (j + 1) • (T ℝ ((j + 3 : ℕ) : ℤ) * T ℝ ((i + 1 : ℕ) : ℤ))
      + (ratio (i + 1) * ratio (j + 1)) • (T ℝ ((j + 3 : ℕ) : ℤ) * T ℝ ((i + 3 : ℕ) : ℤ)) := by
    simp only [nphi, smul_eq_C_mul, map_mul]
    ring
  have c1 : ck (decide (q = .GL)) (n + 5) (j + 1) = 1 := by
    rw [ck, if_neg]
    rintro (h | ⟨-, h⟩) <;> omega
  rw [e, map_add, map_sub, map_sub, map_smul, map_smul, map_smul, quad_TT q (n + 3) _ _ (by omega) (by omega),
    quad_TT q (n + 3) _ _ (by omega) (by omega), quad_TT q (n + 3) _ _ (by omega) (by omega), quad_TT q (n + 3) _ _ (by omega) (by omega),
    show n + 3 + 2 = n + 5 from rfl, c1]
  simp only [smul_eq_mul]
  by_cases h : i = j
  · subst h
    rw [if_pos rfl, if_neg (by omega), if_neg (by omega), if_pos rfl, if_pos rfl]
    ring
  · rw [if_neg (by omega : ¬j + 1 = i + 1), if_neg (by omega : ¬j + 3 = i + 3), if_neg h]
    by_cases h1 : i = j + 2
    · subst h1
      have c2 : ck (decide (q = .GL)) (n + 5) (j + 3) = 1 := by
        rw [ck, if_neg]
        rintro (h | ⟨-, h⟩) <;> omega
      rw [if_neg (by omega), if_pos (by omega), if_pos rfl, c2]; ring
    · rw [if_neg h1]
      by_cases h2 : j = i + 2
      · subst h2
        rw [if_pos (by omega), if_neg (by omega), if_pos rfl]; ring
      · rw [if_neg (by omega), if_neg (by omega), if_neg h2]; ring

/-- The matrix of `fastShenTransNeumann`. -/
noncomputable def tri : ℕ → ℕ → ℝ := triMatrix (fun i => 1 * (-π / 2) * ratio (i + 1))
  (fun i => π / 2 * (1 + ((i + 1 : ℕ) / (((i + 1 : ℕ) : ℝ) + 2)) ^ 4)) (fun i => 1 * (-π / 2) * ratio (i + 1))

theorem tri_entry (n : ℕ) : (Matrix.of fun i j : Fin (n + 2) => tri i j) =
    entry .GC (n + 5) (fun j => nphi (j + 1)) (fun j => nphi (j + 1)) 0 (n + 2) (n + 2) := by
  ext i j
  rw [entry, Function.iterate_zero, id, quad_mass .GC n i j i.2 j.2, Matrix.of_apply, tri, triMatrix]
  have hc : ck (decide (Quad.GC = Quad.GL)) (n + 5) ((i : ℕ) + 3) = 1 := by simp [ck]
  rw [hc]
  split_ifs with h
  · rw [ratio]; ring
  · ring
  · ring
  · rfl

theorem tri_det (n : ℕ) : (Matrix.of fun i j : Fin (n + 2) => tri i j).det ≠ 0 := by
  rw [tri_entry]
  exact det_ne_zero _ fun x hx => (mass_pos .GC (n + 5) (n + 2) (fun j => nphi (j + 1)) 3 (by omega) (by omega) degree_nphi x hx).ne'

theorem entry_sum (q : Quad) (n d : ℕ) (A : ℕ → ℕ → ℝ)
    (hA : (Matrix.of fun i j : Fin (n + 2) => A i j) = entry q (n + 5) (fun j => nphi (j + 1)) (fun j => nphi (j + 1)) d (n + 2) (n + 2))
    (c : ℕ → ℝ) (i : ℕ) (hi : i < n + 2) :
    ∑ j ∈ range (n + 2), A i j * c j = quadrature q (n + 5) (derivative^[d] (shen (n + 5) c) * nphi (i + 1)) := by
  have h : ∀ j : Fin (n + 2), A i j = quadrature q (n + 5) (derivative^[d] (nphi (j + 1)) * nphi (i + 1)) :=
    fun j => congrFun (congrFun hA ⟨i, hi⟩) j
  rw [sum_range, shen, show n + 5 - 3 = n + 2 from rfl, iterate_derivative_sum, sum_mul, map_sum, sum_range]
  refine sum_congr rfl fun j _ => ?_
  rw [h, iterate_derivative_smul, smul_mul_assoc, map_smul, smul_eq_mul, mul_comm]

theorem trans_spec (n : ℕ) (f c : ℕ → ℝ) : (∀ k < n + 2, fastShenTransNeumann (n + 5) f k = c k) ↔
    ∀ i < n + 2, quadrature .GC (n + 5) (shen (n + 5) c * nphi (i + 1)) = fastShenScalarNeumann (n + 5) f i := by
  have h := linsolve_spec (n + 2) tri (fastShenScalarNeumann (n + 5) f) (tri_det n) c
  refine h.symm.trans (forall₂_congr fun i hi => ?_)
  rw [entry_sum .GC n 0 _ (tri_entry n) c i hi]
  rfl

theorem solve_spec (n : ℕ) (d c : ℕ → ℝ) : (∀ k < n + 2, solveNeumann (n + 5) d k = c k) ↔
    ∀ i < n + 2, quadrature .GL (n + 5) (derivative^[2] (shen (n + 5) c) * nphi (i + 1)) = d i := by
  rw [solve_eq _ (by omega)]
  have h := linsolve_spec (n + 2) (fun i j => stiff (i + 1) (j + 1)) d (stiff_det (n + 2)) c
  refine h.symm.trans (forall₂_congr fun i hi => ?_)
  rw [← entry_sum .GL n 2 (fun i j => stiff (i + 1) (j + 1)) (stiff_entry n) c i hi]

/-- The two quadratures differ in the last inner product only. -/
theorem quad_diff (n : ℕ) (c : ℕ → ℝ) (i : ℕ) (hi : i < n + 2) : quadrature .GL (n + 5) (shen (n + 5) c * nphi (i + 1)) =
    quadrature .GC (n + 5) (shen (n + 5) c * nphi (i + 1)) + if i = n + 1 then π / 2 * ratio (n + 2) ^ 2 * c (n + 1) else 0 := by
  rw [shen, show n + 5 - 3 = n + 2 from rfl, sum_mul, map_sum, map_sum]
  simp only [smul_mul_assoc, map_smul, smul_eq_mul]
  rw [← sub_eq_iff_eq_add', ← sum_sub_distrib, sum_eq_single i]
  · rw [quad_mass .GL n i i hi hi, quad_mass .GC n i i hi hi, if_pos rfl, if_pos rfl]
    have hc : ck (decide (Quad.GC = Quad.GL)) (n + 5) (i + 3) = 1 := by simp [ck]
    rw [hc]
    by_cases h : i = n + 1
    · subst h
      have hc2 : ck (decide (Quad.GL = Quad.GL)) (n + 5) (n + 1 + 3) = 2 := by simp [ck]
      rw [if_pos rfl, hc2]; ring
    · have hc2 : ck (decide (Quad.GL = Quad.GL)) (n + 5) (i + 3) = 1 := by
        rw [ck, if_neg]; rintro (h' | ⟨-, h'⟩) <;> omega
      rw [if_neg h, hc2]; ring
  · intro j hj hji
    have hj := mem_range.1 hj
    rw [quad_mass .GL n i j hi hj, quad_mass .GC n i j hi hj, if_neg (Ne.symm hji), if_neg (Ne.symm hji), sub_self]
  · intro h; exact absurd (mem_range.2 hi) h

/-! ## The space -/

theorem nphi_flat (k : ℕ) : (derivative (nphi k)).eval 1 = 0 ∧ (derivative (nphi k)).eval (-1) = 0 := by
  have hk : (k : ℝ) + 2 ≠ 0 := by positivity
  have h1 : ∀ m : ℕ, (derivative (T ℝ (m : ℤ))).eval 1 = (m : ℝ) ^ 2 := fun m => by
    rw [T_derivative_eq_U]
    simp [U_eval_one]
    ring
  have h2 : ∀ m : ℕ, (derivative (T ℝ (m : ℤ))).eval (-1) = -(-1) ^ m * (m : ℝ) ^ 2 := fun m => by
    rw [T_derivative_eq_U, eval_mul, U_eval_neg_one]
    rcases Nat.even_or_odd m with h | h
    · have : ((m : ℤ) - 1).negOnePow = -1 := Int.negOnePow_odd _ (by
        have := (Int.even_coe_nat m).2 h
        exact Even.sub_odd this odd_one)
      rw [this, h.neg_one_pow]; simp; ring
    · have : ((m : ℤ) - 1).negOnePow = 1 := Int.negOnePow_even _ (by
        have := (Int.odd_coe_nat m).2 h
        exact Odd.sub_odd this odd_one)
      rw [this, h.neg_one_pow]; simp; ring
  have e : (ratio k) * ((k : ℝ) + 2) ^ 2 = k ^ 2 := by rw [ratio]; field_simp
  constructor
  · rw [nphi, derivative_sub, derivative_smul, eval_sub, eval_smul, h1, h1, smul_eq_mul]
    push_cast
    rw [e, sub_self]
  · rw [nphi, derivative_sub, derivative_smul, eval_sub, eval_smul, h2, h2, smul_eq_mul, pow_add]
    push_cast
    linear_combination (-1) ^ k * e

theorem wint_nphi (k : ℕ) : wint (nphi (k + 1)) = 0 := by
  rw [nphi, map_sub, map_smul, wint_T, wint_T, if_neg (by omega), if_neg (by omega), smul_zero, sub_zero]

theorem mean_eq (u : ℝ[X]) : mean u = 0 ↔ wint u = 0 := by
  rw [mean, div_eq_zero_iff, or_iff_left pi_ne_zero]
  rfl

theorem exists_shen (n : ℕ) (p : ℝ[X]) (hp : Flat (n + 5) p) (h0 : mean p = 0) : ∃ c, p = shen (n + 5) c := by
  have hf : ∃ x : Fin (n + 2) → ℝ, expand (fun j => nphi (j + 1)) x = p := by
    refine exists_expand (fun j => nphi (j + 1)) 3 degree_nphi
      (fun p => (derivative p).eval 1 = 0 ∧ (derivative p).eval (-1) = 0 ∧ wint p = 0) ?_ ?_ (n + 2) p hp.1 ⟨hp.2.1, hp.2.2, (mean_eq p).1 h0⟩
    · rintro p j c ⟨ha, hb, hc⟩
      have := nphi_flat (j + 1)
      simp [ha, hb, hc, this, wint_nphi]
    · rintro p hd ⟨ha, hb, hc⟩
      have hn : p.natDegree ≤ 2 := by
        by_cases h : p = 0
        · rw [h, natDegree_zero]; omega
        · rw [degree_eq_natDegree h] at hd
          have : p.natDegree < 3 := by exact_mod_cast hd
          omega
      have hp := as_sum_range_C_mul_X_pow' (p := p) (n := 3) (by omega)
      rw [sum_range_succ, sum_range_succ, sum_range_one, pow_zero, mul_one, pow_one] at hp
      set a := p.coeff 0
      set b := p.coeff 1
      set d := p.coeff 2
      rw [hp] at ha hb
      simp [derivative_mul, derivative_pow] at ha hb
      have hb0 : b = 0 := by linarith
      have hd0 : d = 0 := by linarith
      rw [hb0, hd0] at hp
      simp only [map_zero, zero_mul, add_zero] at hp
      rw [hp, show Polynomial.C a = a • T ℝ ((0 : ℕ) : ℤ) by rw [Nat.cast_zero, T_zero, smul_eq_C_mul, mul_one], map_smul, wint_T, if_pos rfl,
        smul_eq_mul] at hc
      rw [hp, (mul_eq_zero.1 hc).resolve_right pi_ne_zero, map_zero]
  obtain ⟨x, rfl⟩ := hf
  refine ⟨fun k => if h : k < n + 2 then x ⟨k, h⟩ else 0, ?_⟩
  rw [shen_expand (n + 2)]
  congr 1
  funext k
  simp

theorem shen_flat (n : ℕ) (c : ℕ → ℝ) : Flat (n + 5) (shen (n + 5) c) ∧ mean (shen (n + 5) c) = 0 := by
  refine ⟨⟨?_, ?_, ?_⟩, ?_⟩
  · rw [shen_expand (n + 2)]
    exact degree_expand _ 3 degree_nphi _
  · rw [shen, Polynomial.derivative_sum, eval_finsetSum]
    exact sum_eq_zero fun i _ => by rw [derivative_smul, eval_smul, (nphi_flat _).1, smul_zero]
  · rw [shen, Polynomial.derivative_sum, eval_finsetSum]
    exact sum_eq_zero fun i _ => by rw [derivative_smul, eval_smul, (nphi_flat _).2, smul_zero]
  · rw [mean_eq, shen, map_sum]
    exact sum_eq_zero fun i _ => by rw [map_smul, wint_nphi, smul_zero]

theorem shen_congr (n : ℕ) (c d : ℕ → ℝ) (h : ∀ k < n + 2, c k = d k) : shen (n + 5) c = shen (n + 5) d :=
  sum_congr rfl fun k hk => by rw [h k (mem_range.1 hk)]

theorem shen_single (n i : ℕ) (hi : i < n + 2) : shen (n + 5) (fun k => if k = i then 1 else 0) = nphi (i + 1) := by
  rw [shen, show n + 5 - 3 = n + 2 from rfl, sum_eq_single i]
  · rw [if_pos rfl, one_smul]
  · intro j _ h; rw [if_neg h, zero_smul]
  · intro h; exact absurd (mem_range.2 hi) h

/-- Testing with the basis is testing with everything. -/
theorem orthogonal_iff (n : ℕ) (p : ℝ[X]) (f : ℕ → ℝ) : (Orthogonal (n + 5) fun j => sample (n + 5) p j - f j) ↔
    ∀ i < n + 2, quadrature .GL (n + 5) (p * nphi (i + 1)) = fastShenScalarNeumann (n + 5) f i := by
  have e : ∀ i, ∑ j ∈ range (n + 5), weight (n + 5) j * (sample (n + 5) p j - f j) * sample (n + 5) (nphi (i + 1)) j = 0 ↔
      quadrature .GL (n + 5) (p * nphi (i + 1)) = fastShenScalarNeumann (n + 5) f i := fun i => by
    rw [← scalar_sample _ (by omega), scalar_eq _ (by omega), scalar_eq _ (by omega), ← sub_eq_zero (b := ∑ j ∈ _, weight _ j * f j * _),
      ← sum_sub_distrib]
    simp only [mul_sub, sub_mul]
  constructor
  · intro h i hi
    have := shen_flat n (fun k => if k = i then 1 else 0)
    rw [shen_single n i hi] at this
    exact (e i).1 (h _ this.1 this.2)
  · intro h v hv h0
    obtain ⟨c, rfl⟩ := exists_shen n v hv h0
    have hs : ∀ j, sample (n + 5) (shen (n + 5) c) j = ∑ i ∈ range (n + 2), c i * sample (n + 5) (nphi (i + 1)) j := fun j => by
      simp only [sample, shen, eval_finsetSum, eval_smul, smul_eq_mul]
      rfl
    simp only [hs, mul_sum]
    rw [sum_comm]
    refine sum_eq_zero fun i hi => ?_
    have := (e i).2 (h i (mem_range.1 hi))
    calc _ = c i * ∑ j ∈ range (n + 5), weight (n + 5) j * (sample (n + 5) p j - f j) * sample (n + 5) (nphi (i + 1)) j := by
          rw [mul_sum]; exact sum_congr rfl fun j _ => by ring
      _ = 0 := by rw [this, mul_zero]

theorem sum_weight (n : ℕ) : ∑ i ∈ range (n + 5), weight (n + 5) i = π := by
  have h := quad_exact .GL (n + 5) (by omega) (T ℝ ((0 : ℕ) : ℤ)) (by rw [degree_T]; exact_mod_cast (by omega : 0 < 2 * (n + 5 - 1)))
  rw [wint_T, if_pos rfl, quadrature_apply] at h
  rw [← h]
  exact sum_congr rfl fun j _ => by simp [weight_eq]

/-- Subtracting the mean does not change the right-hand side. -/
theorem rhs_eq (n : ℕ) (f : ℕ → ℝ) (i : ℕ) (hi : i < n + 2) :
    ∑ j ∈ range (n + 5), V (n + 5) i j * (subtractMean (n + 5) f j * weights (n + 5) j) = fastShenScalarNeumann (n + 5) f i := by
  have h := quad_exact .GL (n + 5) (by omega) (nphi (i + 1)) (by rw [degree_nphi]; exact_mod_cast (by omega : i + 3 < 2 * (n + 5 - 1)))
  rw [wint_nphi, quadrature_apply] at h
  rw [scalar_eq _ (by omega)]
  simp only [subtractMean]
  set m := (∑ i ∈ range (n + 5), f i * weights (n + 5) i) / ∑ i ∈ range (n + 5), weights (n + 5) i
  have e : ∀ j, V (n + 5) i j * ((f j - m) * weights (n + 5) j) =
      weight (n + 5) j * f j * sample (n + 5) (nphi (i + 1)) j - m * (quadWeight .GL (n + 5) j * (nphi (i + 1)).eval (quadPoint .GL (n + 5) j)) :=
    fun j => by rw [V_eq, weights_eq _ _ (by omega), ← weight_eq, ← node_eq, sample]; ring
  simp only [e]
  rw [sum_sub_distrib, ← mul_sum, h, mul_zero, sub_zero]

/-- The mean that the script subtracts is the mean. -/
theorem subtractMean_sample (n : ℕ) (u : ℝ[X]) (hu : u.degree < (n + 5 : ℕ)) (j : ℕ) :
    subtractMean (n + 5) (sample (n + 5) u) j = sample (n + 5) u j - mean u := by
  have h := quad_exact .GL (n + 5) (by omega) u (lt_of_lt_of_le hu (by exact_mod_cast (by omega : n + 5 ≤ 2 * (n + 5 - 1))))
  rw [quadrature_apply] at h
  rw [subtractMean, mean]
  simp only [weights_eq _ _ (by omega : 2 ≤ n + 5), sum_weight]
  congr 2
  change _ = wint u
  rw [← h]
  exact sum_congr rfl fun j _ => by rw [sample, weight_eq, node_eq, mul_comm]

end SpectralDNS.Sandbox.Neumann

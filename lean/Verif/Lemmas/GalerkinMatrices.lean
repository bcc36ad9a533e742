import Verif.Lemmas.Galerkin
import Verif.Model.RayleighBenard

/-! Closed forms of the Galerkin matrices of the Dirichlet basis. -/

namespace SpectralDNS.Channel

open Polynomial Polynomial.Chebyshev Real ChebWeight Finset

theorem quad_T (q : Quad) (n m : ℕ) (hm : m ≤ 2 * (n + 1)) :
    quadrature q (n + 2) (T ℝ (m : ℤ)) = if m = 0 ∨ (q = .GL ∧ m = 2 * (n + 1)) then π else 0 := by
  cases q
  · rw [quad_GC_T _ _ (by omega) (by omega), wint_T]
    simp
  · rw [quad_GL_trap, Utilities.trap_T]
    have hn' : (n : ℝ) + 1 ≠ 0 := by positivity
    by_cases h : m = 0 ∨ m = 2 * (n + 1)
    · rw [if_pos, if_pos (by simpa using h)]
      · field_simp
      · rcases h with rfl | rfl
        · simp
        · exact ⟨1, by push_cast; ring⟩
    · rw [if_neg, if_neg (by simpa using h), mul_zero]
      intro hd
      obtain ⟨h1, h2⟩ := not_or.1 h
      have := Int.le_of_dvd (by omega) hd
      omega

theorem quad_TT (q : Quad) (n i j : ℕ) (hi : i ≤ n + 1) (hj : j ≤ n + 1) : quadrature q (n + 2) (T ℝ (i : ℤ) * T ℝ (j : ℤ)) =
    if i = j then π / 2 * ck (decide (q = .GL)) (n + 2) i else 0 := by
  wlog hij : j ≤ i
  · rw [mul_comm, this q n j i hj hi (by omega)]
    by_cases h : i = j
    · subst h; rfl
    · rw [if_neg h, if_neg (Ne.symm h)]
  have h := congrArg (quadrature q (n + 2)) (T_mul_T ℝ (i : ℤ) (j : ℤ))
  rw [show (i : ℤ) + j = ((i + j : ℕ) : ℤ) by push_cast; ring, show (i : ℤ) - j = ((i - j : ℕ) : ℤ) by omega, map_add,
    quad_T q n _ (by omega), quad_T q n _ (by omega), show (2 : ℝ[X]) * T ℝ (i : ℤ) * T ℝ (j : ℤ) = (2 : ℝ) • (T ℝ (i : ℤ) * T ℝ (j : ℤ)) by
      rw [smul_eq_C_mul, map_ofNat]; ring, map_smul, smul_eq_mul] at h
  by_cases e : i = j
  · subst e
    rw [if_pos rfl, ck]
    rw [if_pos (Or.inl (by omega)) (c := i - i = 0 ∨ _)] at h
    by_cases h0 : i = 0 ∨ (q = .GL ∧ i + 1 = n + 2)
    · rw [if_pos (h0.imp (fun _ => by omega) fun h' => ⟨h'.1, by omega⟩)] at h
      rw [if_pos (by simpa using h0)]; linarith
    · rw [if_neg (fun h' => h0 (h'.imp (fun _ => by omega) fun h' => ⟨h'.1, by omega⟩))] at h
      rw [if_neg (by simpa using h0)]; linarith
  · rw [if_neg (by omega), if_neg (by omega)] at h
    rw [if_neg e]; linarith

theorem wint_TT (i j : ℕ) : wint (T ℝ (i : ℤ) * T ℝ (j : ℤ)) = if i = j then (if i = 0 then π else π / 2) else 0 := by
  wlog hij : j ≤ i
  · rw [mul_comm, this j i (by omega)]
    by_cases h : i = j
    · subst h; rfl
    · rw [if_neg h, if_neg (Ne.symm h)]
  have h := congrArg wint (T_mul_T ℝ (i : ℤ) (j : ℤ))
  rw [show (i : ℤ) + j = ((i + j : ℕ) : ℤ) by push_cast; ring, show (i : ℤ) - j = ((i - j : ℕ) : ℤ) by omega, map_add,
    wint_T, wint_T, show (2 : ℝ[X]) * T ℝ (i : ℤ) * T ℝ (j : ℤ) = (2 : ℝ) • (T ℝ (i : ℤ) * T ℝ (j : ℤ)) by
      rw [smul_eq_C_mul, map_ofNat]; ring, map_smul, smul_eq_mul] at h
  by_cases e : i = j
  · subst e
    rw [if_pos rfl]
    by_cases h0 : i = 0
    · subst h0; simp at h ⊢; linarith
    · rw [if_neg (by omega), if_pos (by omega)] at h
      rw [if_neg h0]; linarith
  · rw [if_neg (by omega), if_neg (by omega)] at h
    rw [if_neg e]; linarith

theorem U_succ_two (m : ℕ) : U ℝ ((m + 2 : ℕ) : ℤ) = U ℝ (m : ℤ) + 2 * T ℝ ((m + 2 : ℕ) : ℤ) := by
  have := two_mul_T_eq_U_sub_U ℝ (m : ℤ)
  push_cast
  linear_combination -this

theorem wint_two (p : ℝ[X]) : wint (2 * p) = 2 * wint p := by
  rw [show (2 : ℝ[X]) * p = (2 : ℝ) • p by rw [smul_eq_C_mul, map_ofNat], map_smul, smul_eq_mul]

theorem wint_two_T_phi (m i : ℕ) : wint (2 * T ℝ ((m + 2 : ℕ) : ℤ) * phi i) = (if m + 2 = i then π else 0) - (if m = i then π else 0) := by
  rw [phi, mul_sub, map_sub, mul_assoc, mul_assoc, wint_two, wint_two, wint_TT, wint_TT]
  simp only [Nat.add_right_cancel_iff, if_neg (by omega : ¬m + 2 = 0)]
  split_ifs <;> ring

theorem wint_U_phi (i m : ℕ) : wint (U ℝ (m : ℤ) * phi i) = if m = i then π else 0 := by
  induction m using Nat.twoStepInduction with
  | zero =>
    have := wint_TT 0 i
    have h2 := wint_TT 0 (i + 2)
    simp only [Nat.cast_zero, T_zero, one_mul] at this h2
    simp only [Nat.cast_zero, U_zero, one_mul, phi, map_sub, this, h2]
    simp
  | one =>
    have := wint_TT 1 i
    have h2 := wint_TT 1 (i + 2)
    simp only [Nat.cast_one, T_one] at this h2
    rw [Nat.cast_one, U_one, mul_assoc, wint_two, phi, mul_sub, map_sub, this, h2]
    rw [if_neg (by omega : ¬1 = i + 2), if_neg one_ne_zero]
    split_ifs <;> ring
  | more m ih1 _ =>
    rw [U_succ_two, add_mul, map_add, ih1, wint_two_T_phi]
    ring

theorem dU_succ_two (m : ℕ) : derivative (U ℝ ((m + 2 : ℕ) : ℤ)) = derivative (U ℝ (m : ℤ)) + (2 * ((m : ℝ) + 2)) • U ℝ ((m + 1 : ℕ) : ℤ) := by
  rw [U_succ_two, derivative_add, show (2 : ℝ[X]) * T ℝ ((m + 2 : ℕ) : ℤ) = (2 : ℝ) • T ℝ ((m + 2 : ℕ) : ℤ) by rw [smul_eq_C_mul, map_ofNat],
    derivative_smul, T_derivative_eq_U, mul_smul]
  congr 2
  rw [smul_eq_C_mul, show ((m + 2 : ℕ) : ℤ) - 1 = ((m + 1 : ℕ) : ℤ) by push_cast; ring, map_add, map_ofNat]
  simp

theorem wint_dU_phi (i m : ℕ) : wint (derivative (U ℝ (m : ℤ)) * phi i) = if i < m ∧ (m - 1 - i) % 2 = 0 then 2 * π * (i + 1) else 0 := by
  induction m using Nat.twoStepInduction with
  | zero => simp
  | one =>
    have := wint_U_phi i 0
    simp only [Nat.cast_zero, U_zero, one_mul] at this
    rw [Nat.cast_one, U_one, derivative_mul, derivative_X, show derivative (2 : ℝ[X]) = 0 from derivative_ofNat 2, zero_mul, zero_add,
      mul_one, wint_two, this]
    by_cases h : i = 0
    · subst h; simp
    · rw [if_neg (Ne.symm h), if_neg (by omega), mul_zero]
  | more m ih1 _ =>
    rw [dU_succ_two, add_mul, map_add, ih1, smul_mul_assoc, map_smul, wint_U_phi, smul_eq_mul]
    by_cases h : m + 1 = i
    · subst h
      rw [if_neg (by omega), if_pos rfl, if_pos (by omega)]
      push_cast; ring
    · rw [if_neg h, mul_zero, add_zero]
      by_cases h1 : i < m ∧ (m - 1 - i) % 2 = 0
      · rw [if_pos h1, if_pos (by omega)]
      · rw [if_neg h1, if_neg (by omega)]

theorem phi_second (j : ℕ) : derivative^[2] (phi j) = (-(2 * (j : ℝ) * (j + 1))) • U ℝ (j : ℤ) - (2 : ℝ) • derivative (U ℝ ((j + 1 : ℕ) : ℤ)) := by
  have h1 : derivative (phi j) = (-(2 * (j : ℝ))) • T ℝ ((j + 1 : ℕ) : ℤ) - (2 : ℝ) • U ℝ ((j + 1 : ℕ) : ℤ) := by
    rw [phi, derivative_sub, T_derivative_eq_U, T_derivative_eq_U]
    have := two_mul_T_eq_U_sub_U ℝ ((j : ℤ) - 1)
    rw [show ((j : ℤ) - 1 + 2) = j + 1 by ring] at this
    simp only [smul_eq_C_mul, map_neg, map_mul, map_ofNat, map_natCast]
    rw [show ((j + 2 : ℕ) : ℤ) - 1 = j + 1 by push_cast; ring]
    push_cast
    linear_combination (j : ℝ[X]) * this
  simp only [Function.iterate_succ, Function.iterate_zero, Function.comp_apply, id_eq]
  rw [h1, derivative_sub, derivative_smul, derivative_smul, T_derivative_eq_U, show ((j + 1 : ℕ) : ℤ) - 1 = j by push_cast; ring]
  simp only [smul_eq_C_mul, map_neg, map_mul, map_ofNat, map_natCast, map_add, map_one]
  push_cast
  ring

theorem wint_stiff (i j : ℕ) : wint (derivative^[2] (phi j) * phi i) =
    if i = j then -2 * π * (i + 1) * (i + 2) else if i < j ∧ (j - i) % 2 = 0 then -4 * π * (i + 1) else 0 := by
  rw [phi_second, sub_mul, map_sub, smul_mul_assoc, smul_mul_assoc, map_smul, map_smul, wint_U_phi, wint_dU_phi, smul_eq_mul, smul_eq_mul]
  by_cases h : i = j
  · subst h
    rw [if_pos rfl, if_pos rfl, if_pos (by omega)]
    ring
  · rw [if_neg (Ne.symm h), if_neg h]
    by_cases h1 : i < j ∧ (j - i) % 2 = 0
    · rw [if_pos h1, if_pos (by omega)]; ring
    · rw [if_neg h1, if_neg (by omega)]; ring

/-- The stiffness matrix, with either quadrature. -/
theorem entry_stiff (q : Quad) (n : ℕ) : (entry q (n + 4) phi phi 2 (n + 2) (n + 2)).map ((↑) : ℝ → ℂ) = stiffMatrix (n + 4) := by
  funext i j
  have hdeg : ∀ j : Fin (n + 2), (phi j).degree < ((n + 4 : ℕ) : WithBot ℕ) := fun j => by
    rw [degree_phi]
    exact_mod_cast (by have := j.2; omega : (j : ℕ) + 2 < n + 4)
  rw [Matrix.map_apply, entry, quad_exact_form q _ 2 (by omega) (by omega) _ _ (hdeg j) (hdeg i), wint_stiff, stiffMatrix]
  simp only [← Fin.ext_iff, Fin.lt_def]
  split_ifs <;> push_cast <;> ring

/-- The mass matrix. -/
theorem entry_mass (q : Quad) (n : ℕ) : (entry q (n + 4) phi phi 0 (n + 2) (n + 2)).map ((↑) : ℝ → ℂ) = massMatrix (decide (q = .GL)) (n + 4) := by
  funext i j
  have hi := i.2
  have hj := j.2
  have e : derivative^[0] (phi j) * phi i = T ℝ ((j : ℕ) : ℤ) * T ℝ ((i : ℕ) : ℤ) - T ℝ ((j : ℕ) : ℤ) * T ℝ ((i + 2 : ℕ) : ℤ)
      - T ℝ ((j + 2 : ℕ) : ℤ) * T ℝ ((i : ℕ) : ℤ) + T ℝ ((j + 2 : ℕ) : ℤ) * T ℝ ((i + 2 : ℕ) : ℤ) := by
    rw [Function.iterate_zero, id, phi, phi]; ring
  rw [Matrix.map_apply, entry, e, map_add, map_sub, map_sub, quad_TT q (n + 2) _ _ (by omega) (by omega),
    quad_TT q (n + 2) _ _ (by omega) (by omega), quad_TT q (n + 2) _ _ (by omega) (by omega), quad_TT q (n + 2) _ _ (by omega) (by omega), massMatrix]
  have c1 : ∀ k, k ≠ 0 → k + 1 < n + 4 → ck (decide (q = .GL)) (n + 4) k = 1 := fun k h0 h1 => by
    rw [ck, if_neg]; omega
  simp only [Fin.ext_iff, Nat.add_right_cancel_iff]
  by_cases h : (i : ℕ) = j
  · rw [if_pos h.symm, if_neg (by omega), if_neg (by omega), if_pos h.symm, if_pos h, h]
    push_cast; ring
  rw [if_neg (Ne.symm h), if_neg (Ne.symm h), if_neg h]
  by_cases h1 : (j : ℕ) = i + 2
  · rw [if_pos h1, if_neg (by omega), if_pos (Or.inl h1), c1 _ (by omega) (by omega)]
    push_cast; ring
  · rw [if_neg h1]
    by_cases h2 : (i : ℕ) = j + 2
    · rw [if_pos h2.symm, if_pos (Or.inr h2), c1 _ (by omega) (by omega)]
      push_cast; ring
    · rw [if_neg (Ne.symm h2), if_neg (by omega)]
      simp

end SpectralDNS.Channel

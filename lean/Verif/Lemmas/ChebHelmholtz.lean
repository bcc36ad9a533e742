import Verif.Model.ChebHelmholtz
import Verif.Lemmas.ChebHelmholtzForm
import Verif.Lemmas.LegPoisson
import Mathlib.LinearAlgebra.Lagrange

/-! # The systems of sandbox/nonhomogen_poisson.py -/

namespace SpectralDNS.ChebH

open Polynomial Finset Sandbox

open Polynomial.Chebyshev (T U)

variable {n m : ℕ} {pts w : ℕ → ℝ}

/-! ## The basis -/

/-- The basis. -/
noncomputable def phi (n k : ℕ) : ℝ[X] :=
  if k = n then C (1 / 2) * (T ℝ ((0 : ℕ) : ℤ) + T ℝ ((1 : ℕ) : ℤ)) else
    if 1 ≤ k then T ℝ ((k - 1 : ℕ) : ℤ) - T ℝ ((k + 1 : ℕ) : ℤ) else C (1 / 2) * (T ℝ ((0 : ℕ) : ℤ) - T ℝ ((1 : ℕ) : ℤ))

theorem sum_e (k : ℕ) : ∀ n, k ≤ n →
    ∑ i ∈ range (n + 1), C (if i < k ∧ Odd (i + k) then (if i = 0 then (1 : ℝ) else 2) else 0) * T ℝ (i : ℤ) = U ℝ ((k : ℤ) - 1) := by
  induction k using Nat.twoStepInduction with
  | zero => intro n _; simp
  | one =>
    intro n hn
    rw [sum_eq_single 0]
    · simp
    · intro i _ hi
      rw [if_neg (by omega)]
      simp
    · simp
  | more k ih _ =>
    intro n hn
    have h := Polynomial.Chebyshev.U_eq_two_mul_T_add_U ℝ ((k : ℤ) - 1)
    rw [show ((k + 2 : ℕ) : ℤ) - 1 = (k : ℤ) - 1 + 2 by push_cast; ring, h, ← ih n (by omega)]
    have h2 : ∀ i ∈ range (n + 1), C (if i < k + 2 ∧ Odd (i + (k + 2)) then (if i = 0 then (1 : ℝ) else 2) else 0) * T ℝ (i : ℤ) =
        (if i = k + 1 then 2 * T ℝ ((k : ℤ) - 1 + 2) else 0) + C (if i < k ∧ Odd (i + k) then (if i = 0 then (1 : ℝ) else 2) else 0) * T ℝ (i : ℤ) := fun i _ => by
      have ho : Odd (i + (k + 2)) ↔ Odd (i + k) := by
        rw [← add_assoc, Nat.odd_add]
        simp
      simp only [ho]
      by_cases hi : i = k + 1
      · subst hi
        have h3 : Odd (k + 1 + k) := ⟨k, by ring⟩
        rw [if_pos ⟨by omega, h3⟩, if_neg (by omega), if_pos rfl, if_neg (by omega), show ((k + 1 : ℕ) : ℤ) = (k : ℤ) - 1 + 2 by push_cast; ring,
          C_0, zero_mul, add_zero, show (C 2 : ℝ[X]) = 2 from rfl]
      · rw [if_neg hi, zero_add]
        by_cases hk : i = k
        · subst hk
          have h3 : ¬Odd (i + i) := by rw [Nat.not_odd_iff_even]; exact ⟨i, rfl⟩
          rw [if_neg fun h => h3 h.2, if_neg fun h => h3 h.2]
        · congr 2
          simp only [show (i < k + 2) ↔ i < k by omega]
    rw [sum_congr rfl h2, sum_add_distrib, sum_ite_eq', if_pos (mem_range.2 (by omega))]

theorem sum_D1 (k n : ℕ) (hk : k ≤ n) : ∑ i ∈ range (n + 1), C (D1 i k) * T ℝ (i : ℤ) = derivative (T ℝ (k : ℤ)) := by
  rw [Polynomial.Chebyshev.T_derivative_eq_U, ← sum_e k n hk, mul_sum]
  refine sum_congr rfl fun i _ => ?_
  rw [← mul_assoc]
  congr 1
  rw [show (((k : ℤ) : ℝ[X])) = C (k : ℝ) by simp, ← C_mul]
  congr 1
  unfold D1
  split_ifs <;> ring

theorem Vx_eq (j k : ℕ) (hk : k ≤ n) : Vx n pts j k = (derivative (T ℝ (k : ℤ))).eval (pts j) := by
  rw [← sum_D1 k n hk, eval_finsetSum, Vx]
  exact sum_congr rfl fun i _ => by rw [eval_mul, eval_C, V]; ring

theorem Vxx_eq (j k : ℕ) (hk : k ≤ n) : Vxx n pts j k = (derivative (derivative (T ℝ (k : ℤ)))).eval (pts j) := by
  rw [← sum_D1 k n hk, Polynomial.derivative_sum, eval_finsetSum, Vxx]
  simp only [D2, mul_sum]
  rw [sum_comm]
  refine sum_congr rfl fun l hl => ?_
  rw [derivative_C_mul, eval_mul, eval_C, ← Vx_eq j l (by simpa [Nat.lt_succ_iff] using hl), Vx, mul_sum]
  exact sum_congr rfl fun i _ => by ring

/-- The three assignments, for anything linear. -/
theorem trial_eq (hn : 1 ≤ n) (F : ℝ[X] →ₗ[ℝ] ℝ) (W : ℕ → ℕ → ℝ) (j : ℕ) (h : ∀ k ≤ n, W j k = F (T ℝ (k : ℤ))) (k : ℕ) (hk : k ≤ n) :
    Leg.trial n W j k = F (phi n k) := by
  unfold Leg.trial phi
  split_ifs with h1 h2
  · rw [h 0 (by omega), h 1 hn, ← smul_eq_C_mul, map_smul, map_add, smul_eq_mul]
    ring
  · rw [h (k - 1) (by omega), h (k + 1) (by omega), map_sub]
  · rw [h 0 (by omega), h 1 hn, ← smul_eq_C_mul, map_smul, map_sub, smul_eq_mul]
    ring

/-- The value at `x`. -/
noncomputable def valueAt (x : ℝ) : ℝ[X] →ₗ[ℝ] ℝ := leval x

/-- The derivative at `x`. -/
noncomputable def slopeAt (x : ℝ) : ℝ[X] →ₗ[ℝ] ℝ := (leval x).comp derivative

/-- The second derivative at `x`. -/
noncomputable def curveAt (x : ℝ) : ℝ[X] →ₗ[ℝ] ℝ := (leval x).comp (derivative.comp derivative)

theorem P_eq (hn : 1 ≤ n) (j k : ℕ) (hk : k ≤ n) : P n pts j k = (phi n k).eval (pts j) :=
  trial_eq hn (valueAt (pts j)) _ j (fun _ _ => rfl) k hk

theorem Pxx_eq (hn : 1 ≤ n) (j k : ℕ) (hk : k ≤ n) : Pxx n pts j k = (derivative (derivative (phi n k))).eval (pts j) :=
  trial_eq hn (curveAt (pts j)) _ j (fun k hk => Vxx_eq j k hk) k hk

theorem left_eq (hn : 1 ≤ n) (k : ℕ) (hk : k ≤ n) : left n k = (derivative (phi n k)).eval (-1) := by
  have := trial_eq hn (slopeAt (ends 0)) (Vx n ends) 0 (fun k hk => Vx_eq 0 k hk) k hk
  exact this

theorem right_eq (hn : 1 ≤ n) (k : ℕ) (hk : k ≤ n) : right n k = (derivative (phi n k)).eval 1 := by
  have := trial_eq hn (slopeAt (ends 1)) (Vx n ends) 1 (fun k hk => Vx_eq 1 k hk) k hk
  exact this

theorem phi_degree (hn : 1 ≤ n) (k : ℕ) (hk : k ≤ n) : (phi n k).natDegree ≤ n := by
  have ht : ∀ k : ℕ, (T ℝ (k : ℤ)).natDegree = k := fun k => by rw [Polynomial.Chebyshev.natDegree_T]; simp
  unfold phi
  split_ifs with h1 h2
  · exact (natDegree_C_mul_le _ _).trans ((natDegree_add_le _ _).trans (by rw [ht, ht]; omega))
  · exact (natDegree_sub_le _ _).trans (by rw [ht, ht]; omega)
  · exact (natDegree_C_mul_le _ _).trans ((natDegree_sub_le _ _).trans (by rw [ht, ht]; omega))

theorem phi_left (hn : 1 ≤ n) (k : ℕ) (hk : k ≤ n) : (phi n k).eval (-1) = if k = 0 then 1 else 0 := by
  unfold phi
  split_ifs with h1 h2 h3 h4
  · omega
  · simp
  · omega
  · obtain ⟨l, rfl⟩ : ∃ l, k = l + 1 := ⟨k - 1, by omega⟩
    rw [eval_sub, Polynomial.Chebyshev.T_eval_neg_one, Polynomial.Chebyshev.T_eval_neg_one, Nat.add_sub_cancel,
      show ((l + 1 + 1 : ℕ) : ℤ) = l + 2 by push_cast; ring, Int.negOnePow_add]
    simp [Int.negOnePow_even 2 (by decide)]
  · simp; norm_num
  · omega

theorem phi_right (_hn : 1 ≤ n) (k : ℕ) (_hk : k ≤ n) : (phi n k).eval 1 = if k = n then 1 else 0 := by
  unfold phi
  split_ifs with h1 h2
  · simp; norm_num
  · simp
  · simp

/-- The polynomial with coefficients `c`. -/
noncomputable def poly (n : ℕ) (c : ℕ → ℝ) : ℝ[X] := ∑ k ∈ range (n + 1), C (c k) * phi n k

theorem poly_degree (hn : 1 ≤ n) (c : ℕ → ℝ) : (poly n c).natDegree ≤ n :=
  natDegree_sum_le_of_forall_le _ _ fun k hk => (natDegree_C_mul_le _ _).trans (phi_degree hn k (by simpa [Nat.lt_succ_iff] using hk))

theorem poly_left (hn : 1 ≤ n) (c : ℕ → ℝ) : (poly n c).eval (-1) = c 0 := by
  rw [poly, eval_finsetSum, sum_eq_single 0]
  · rw [eval_mul, phi_left hn 0 (by omega)]; simp
  · intro k hk h
    rw [eval_mul, phi_left hn k (by simpa [Nat.lt_succ_iff] using hk), if_neg h, mul_zero]
  · simp

theorem poly_right (hn : 1 ≤ n) (c : ℕ → ℝ) : (poly n c).eval 1 = c n := by
  rw [poly, eval_finsetSum, sum_eq_single n]
  · rw [eval_mul, phi_right hn n le_rfl]; simp
  · intro k hk h
    rw [eval_mul, phi_right hn k (by simpa [Nat.lt_succ_iff] using hk), if_neg h, mul_zero]
  · simp

theorem poly_map (F : ℝ[X] →ₗ[ℝ] ℝ) (c : ℕ → ℝ) : F (poly n c) = ∑ k ∈ range (n + 1), F (phi n k) * c k := by
  rw [poly, map_sum]
  exact sum_congr rfl fun k _ => by rw [← smul_eq_C_mul, map_smul, smul_eq_mul, mul_comm]

theorem poly_eval (hn : 1 ≤ n) (c : ℕ → ℝ) (j : ℕ) : (poly n c).eval (pts j) = backward n pts c j := by
  refine (poly_map (valueAt (pts j)) c).trans (sum_congr rfl fun k hk => ?_)
  rw [P_eq hn j k (by simpa [Nat.lt_succ_iff] using hk)]
  rfl

theorem poly_congr {c d : ℕ → ℝ} (h : ∀ k ≤ n, c k = d k) : poly n c = poly n d :=
  sum_congr rfl fun k hk => by rw [h k (by simpa [Nat.lt_succ_iff] using hk)]

theorem poly_add (c d : ℕ → ℝ) : poly n (fun k => c k + d k) = poly n c + poly n d := by
  simp only [poly, C_add, add_mul, sum_add_distrib]

theorem poly_mul (a : ℝ) (c : ℕ → ℝ) : poly n (fun k => a * c k) = C a * poly n c := by
  simp only [poly, C_mul, mul_sum, mul_assoc]

theorem poly_single {k : ℕ} (hk : k ≤ n) : poly n (fun l => if l = k then 1 else 0) = phi n k := by
  rw [poly, sum_eq_single k]
  · simp
  · intro l _ hl
    simp [hl]
  · simp; omega

/-- Every polynomial of degree at most `n` is a combination of the basis. -/
theorem exists_poly (hn : 1 ≤ n) {p : ℝ[X]} (hp : p.natDegree ≤ n) : ∃ c, poly n c = p := by
  have hadd : ∀ {p q : ℝ[X]}, (∃ c, poly n c = p) → (∃ c, poly n c = q) → ∃ c, poly n c = p + q := by
    rintro _ _ ⟨c, rfl⟩ ⟨d, rfl⟩
    exact ⟨_, poly_add c d⟩
  have hmul : ∀ (a : ℝ) {p : ℝ[X]}, (∃ c, poly n c = p) → ∃ c, poly n c = C a * p := by
    rintro a _ ⟨c, rfl⟩
    exact ⟨_, poly_mul a c⟩
  have hphi : ∀ k ≤ n, ∃ c, poly n c = phi n k := fun k hk => ⟨_, poly_single hk⟩
  have h0 : phi n 0 = C (1 / 2) * (T ℝ ((0 : ℕ) : ℤ) - T ℝ ((1 : ℕ) : ℤ)) := by rw [phi, if_neg (by omega), if_neg (by omega)]
  have h1 : phi n n = C (1 / 2) * (T ℝ ((0 : ℕ) : ℤ) + T ℝ ((1 : ℕ) : ℤ)) := by rw [phi, if_pos rfl]
  have half : (C (1 / 2) : ℝ[X]) + C (1 / 2) = 1 := by rw [← C_add]; norm_num
  have hT : ∀ k ≤ n, ∃ c, poly n c = T ℝ (k : ℤ) := by
    intro k
    induction k using Nat.twoStepInduction with
    | zero =>
      intro _
      have := hadd (hphi 0 (by omega)) (hphi n le_rfl)
      rw [h0, h1] at this
      rwa [show C (1 / 2) * (T ℝ ((0 : ℕ) : ℤ) - T ℝ ((1 : ℕ) : ℤ)) + C (1 / 2) * (T ℝ ((0 : ℕ) : ℤ) + T ℝ ((1 : ℕ) : ℤ)) = T ℝ ((0 : ℕ) : ℤ) by
        linear_combination T ℝ ((0 : ℕ) : ℤ) * half] at this
    | one =>
      intro _
      have := hadd (hmul (-1) (hphi 0 (by omega))) (hphi n le_rfl)
      rw [h0, h1] at this
      rwa [show C (-1) * (C (1 / 2) * (T ℝ ((0 : ℕ) : ℤ) - T ℝ ((1 : ℕ) : ℤ))) + C (1 / 2) * (T ℝ ((0 : ℕ) : ℤ) + T ℝ ((1 : ℕ) : ℤ)) = T ℝ ((1 : ℕ) : ℤ) by
        rw [C_neg, C_1]; linear_combination T ℝ ((1 : ℕ) : ℤ) * half] at this
    | more k ih _ =>
      intro hk
      have := hadd (ih (by omega)) (hmul (-1) (hphi (k + 1) (by omega)))
      rwa [show T ℝ (k : ℤ) + C (-1) * phi n (k + 1) = T ℝ ((k + 2 : ℕ) : ℤ) by
        rw [phi, if_neg (by omega), if_pos (by omega), Nat.add_sub_cancel, C_neg, C_1]; ring] at this
  obtain ⟨c, rfl⟩ := exists_series (n + 1) p ((degree_lt_iff_coeff_zero _ _).2 fun k hk => coeff_eq_zero_of_natDegree_lt (by omega))
  rw [series]
  refine Finset.sum_induction _ (fun p => ∃ c, poly n c = p) (fun _ _ => hadd) ⟨fun _ => 0, by simp [poly]⟩ fun k hk => ?_
  rw [smul_eq_C_mul]
  exact hmul _ (hT k (by simpa [Nat.lt_succ_iff] using hk))

/-- The basis is independent. -/
theorem poly_injective (hn : 1 ≤ n) {c : ℕ → ℝ} (h : poly n c = 0) : ∀ k ≤ n, c k = 0 := by
  let L : (Fin (n + 1) → ℝ) →ₗ[ℝ] degreeLT ℝ (n + 1) :=
    { toFun := fun c => ⟨∑ k : Fin (n + 1), C (c k) * phi n k, by
        refine Submodule.sum_mem _ fun k _ => mem_degreeLT.2 ?_
        refine (degree_lt_iff_coeff_zero _ _).2 fun l hl => coeff_eq_zero_of_natDegree_lt ?_
        have := (natDegree_C_mul_le (c k) (phi n k)).trans (phi_degree hn k (by omega))
        omega⟩
      map_add' := fun c d => Subtype.ext (by simp [add_mul, sum_add_distrib])
      map_smul' := fun a c => Subtype.ext (by simp [smul_eq_C_mul, mul_sum, mul_assoc]) }
  have hL : ∀ c : ℕ → ℝ, (L fun k => c k : ℝ[X]) = poly n c := fun c => by
    rw [poly, Finset.sum_range]
    rfl
  have hs : Function.Surjective L := fun p => by
    have hp : (p : ℝ[X]).natDegree ≤ n := by
      have := mem_degreeLT.1 p.2
      by_cases h0 : (p : ℝ[X]) = 0
      · rw [h0]; simp
      · exact Nat.lt_succ_iff.1 ((natDegree_lt_iff_degree_lt h0).2 this)
    obtain ⟨d, hd⟩ := exists_poly hn hp
    exact ⟨fun k => d k, Subtype.ext (by rw [hL, hd])⟩
  have hi : Function.Injective L := by
    haveI : FiniteDimensional ℝ (degreeLT ℝ (n + 1)) := Module.Finite.equiv (degreeLTEquiv ℝ (n + 1)).symm
    refine (LinearMap.injective_iff_surjective_of_finrank_eq_finrank ?_).2 hs
    rw [(degreeLTEquiv ℝ (n + 1)).finrank_eq]
  have h0 : L (fun k => c k) = 0 := Subtype.ext (by rw [hL, h]; rfl)
  have := hi (h0.trans (map_zero L).symm)
  intro k hk
  exact congrFun this ⟨k, by omega⟩

/-! ## The inner equations are collocation -/

theorem galerkin_iff (hn : 1 ≤ n) (hL : Lobatto n pts w) (g : ℕ → ℝ) :
    (∀ r, 0 < r → r < n → ∑ j ∈ range (n + 1), w j * P n pts j r * g j = 0) ↔ ∀ j, 0 < j → j < n → g j = 0 := by
  have hend : ∀ r, 0 < r → r < n → ∀ j ≤ n, ¬(0 < j ∧ j < n) → P n pts j r = 0 := fun r h0 h1 j hj hj' => by
    have a := phi_left hn r h1.le
    have b := phi_right hn r h1.le
    rw [if_neg (by omega)] at a b
    rw [P_eq hn j r h1.le]
    have : j = 0 ∨ j = n := by omega
    rcases pts_ends hn hL with e | e <;> rcases this with rfl | rfl <;> simp only [e.1, e.2, a, b]
  constructor
  · intro h
    let v : ℕ → ℝ := fun j => if 0 < j ∧ j < n then g j else 0
    have hinj : Set.InjOn pts (range (n + 1)) := fun i hi j hj hij =>
      pts_inj hn hL (Nat.le_of_lt_succ (mem_range.1 hi)) (Nat.le_of_lt_succ (mem_range.1 hj)) hij
    let q : ℝ[X] := Lagrange.interpolate (range (n + 1)) pts v
    have hq : ∀ j ≤ n, q.eval (pts j) = v j := fun j hj => Lagrange.eval_interpolate_at_node v hinj (mem_range.2 (by omega))
    have hqd : q.natDegree ≤ n := by
      have hd : q.degree < ((range (n + 1)).card : ℕ) := Lagrange.degree_interpolate_lt v hinj
      rw [card_range] at hd
      by_cases h0 : q = 0
      · rw [h0]; simp
      · exact Nat.lt_succ_iff.1 ((natDegree_lt_iff_degree_lt h0).2 hd)
    obtain ⟨d, hd⟩ := exists_poly hn hqd
    have v0 : v 0 = 0 := by simp [v]
    have vn : v n = 0 := by simp [v]
    have d0 : d 0 = 0 := by
      rw [← poly_left hn d, hd]
      rcases pts_ends hn hL with e | e
      · rw [← e.2, hq n le_rfl, vn]
      · rw [← e.1, hq 0 (by omega), v0]
    have dn : d n = 0 := by
      rw [← poly_right hn d, hd]
      rcases pts_ends hn hL with e | e
      · rw [← e.1, hq 0 (by omega), v0]
      · rw [← e.2, hq n le_rfl, vn]
    have hsum : ∑ j ∈ range (n + 1), w j * v j * g j = 0 := by
      calc ∑ j ∈ range (n + 1), w j * v j * g j = ∑ j ∈ range (n + 1), ∑ r ∈ range (n + 1), d r * (w j * P n pts j r * g j) := by
            refine sum_congr rfl fun j hj => ?_
            rw [← hq j (by simpa [Nat.lt_succ_iff] using hj), ← hd, poly_eval hn, backward, mul_sum, sum_mul]
            exact sum_congr rfl fun r _ => by ring
        _ = ∑ r ∈ range (n + 1), d r * ∑ j ∈ range (n + 1), w j * P n pts j r * g j := by
            rw [sum_comm]
            exact sum_congr rfl fun r _ => by rw [mul_sum]
        _ = 0 := by
            refine sum_eq_zero fun r hr => ?_
            have hr' := mem_range.1 hr
            by_cases h0 : r = 0
            · rw [h0, d0, zero_mul]
            · by_cases h1 : r = n
              · rw [h1, dn, zero_mul]
              · rw [h r (by omega) (by omega), mul_zero]
    have hnn : ∀ j ∈ range (n + 1), 0 ≤ w j * v j * g j := fun j hj => by
      have := hL.positive j (by simpa [Nat.lt_succ_iff] using hj)
      simp only [v]
      split_ifs
      · rw [mul_assoc]; exact mul_nonneg this.le (mul_self_nonneg _)
      · simp
    intro j h0 h1
    have hz := (sum_eq_zero_iff_of_nonneg hnn).1 hsum j (mem_range.2 (by omega))
    simp only [v] at hz
    rw [if_pos ⟨h0, h1⟩, mul_assoc] at hz
    exact mul_self_eq_zero.1 ((mul_eq_zero.1 hz).resolve_left (hL.positive j h1.le).ne')
  · intro h r h0 h1
    refine sum_eq_zero fun j hj => ?_
    by_cases hj' : 0 < j ∧ j < n
    · rw [h j hj'.1 hj'.2, mul_zero]
    · rw [hend r h0 h1 j (by simpa [Nat.lt_succ_iff] using hj) hj', mul_zero, zero_mul]

/-- The matrix of one domain of `m`. -/
noncomputable def localA (n m : ℕ) (pts w : ℕ → ℝ) (kx : ℝ) (r c : ℕ) : ℝ := K n pts w r c * (m : ℝ) ^ 2 + kx ^ 2 * M n pts w r c

theorem local_row (hn : 1 ≤ n) (kx : ℝ) (c : ℕ → ℝ) (r : ℕ) :
    ∑ k ∈ range (n + 1), localA n m pts w kx r k * c k =
      ∑ j ∈ range (n + 1), w j * P n pts j r * (-(m : ℝ) ^ 2 * (derivative (derivative (poly n c))).eval (pts j) + kx ^ 2 * (poly n c).eval (pts j)) := by
  have e : ∀ j, (derivative (derivative (poly n c))).eval (pts j) = ∑ k ∈ range (n + 1), Pxx n pts j k * c k := fun j => by
    refine (poly_map (curveAt (pts j)) c).trans (sum_congr rfl fun k hk => ?_)
    rw [Pxx_eq hn j k (by simpa [Nat.lt_succ_iff] using hk)]
    rfl
  simp only [e, poly_eval hn, backward, localA, K, M, mul_sum, sum_mul, neg_mul, add_mul, mul_add, sum_neg_distrib, sum_add_distrib, mul_neg]
  congr 1
  · rw [neg_inj, sum_comm]
    exact sum_congr rfl fun j _ => sum_congr rfl fun k _ => by ring
  · rw [sum_comm]
    exact sum_congr rfl fun j _ => sum_congr rfl fun k _ => by ring

theorem local_iff (hn : 1 ≤ n) (hL : Lobatto n pts w) (kx : ℝ) (f c : ℕ → ℝ) :
    (∀ r, 0 < r → r < n → ∑ k ∈ range (n + 1), localA n m pts w kx r k * c k = scalar n pts w f r) ↔
      ∀ j, 0 < j → j < n → -(m : ℝ) ^ 2 * (derivative (derivative (poly n c))).eval (pts j) + kx ^ 2 * (poly n c).eval (pts j) = f j := by
  have h := galerkin_iff hn hL fun j => -(m : ℝ) ^ 2 * (derivative (derivative (poly n c))).eval (pts j) + kx ^ 2 * (poly n c).eval (pts j) - f j
  simp only [sub_eq_zero] at h
  rw [← h]
  refine forall_congr' fun r => forall_congr' fun _ => forall_congr' fun _ => ?_
  rw [local_row hn, scalar, ← sub_eq_zero, ← sum_sub_distrib]
  simp only [mul_sub]

/-! ## Functions -/

/-- The function of `x` with coefficients `U`, on interval `i`. -/
noncomputable def piece (n m : ℕ) (U : ℕ → ℝ) (i : ℕ) : ℝ[X] := (poly n fun k => U (n * i + k)).comp (C (m : ℝ) * X + C ((m : ℝ) - 1 - 2 * i))

theorem piece_eval (U : ℕ → ℝ) (i : ℕ) (x : ℝ) : (piece n m U i).eval x = (poly n fun k => U (n * i + k)).eval (m * x + (m - 1 - 2 * i)) := by
  rw [piece, eval_comp]
  simp

theorem piece_deriv (U : ℕ → ℝ) (i : ℕ) (x : ℝ) :
    (derivative (piece n m U i)).eval x = m * (derivative (poly n fun k => U (n * i + k))).eval (m * x + (m - 1 - 2 * i)) := by
  rw [piece, derivative_comp]
  simp [eval_comp]

theorem piece_deriv2 (U : ℕ → ℝ) (i : ℕ) (x : ℝ) :
    (derivative (derivative (piece n m U i))).eval x = (m : ℝ) ^ 2 * (derivative (derivative (poly n fun k => U (n * i + k)))).eval (m * x + (m - 1 - 2 * i)) := by
  rw [piece, derivative_comp, derivative_mul, derivative_comp]
  simp [eval_comp]
  ring

theorem piece_left (hn : 1 ≤ n) (hm : 1 ≤ m) (U : ℕ → ℝ) (i : ℕ) : (piece n m U i).eval (Leg.node m i) = U (n * i) := by
  rw [piece_eval, Leg.arg_left hm, poly_left hn, add_zero]

theorem piece_right (hn : 1 ≤ n) (hm : 1 ≤ m) (U : ℕ → ℝ) (i : ℕ) : (piece n m U i).eval (Leg.node m (i + 1)) = U (n * i + n) := by
  rw [piece_eval, Leg.arg_right hm, poly_right hn]

theorem piece_piecewise (hn : 1 ≤ n) (hm : 1 ≤ m) (U : ℕ → ℝ) : Leg.Piecewise n m (piece n m U) := by
  refine ⟨fun i _ => ?_, fun i _ => ?_⟩
  · rw [piece, natDegree_comp]
    have h1 := poly_degree hn fun k => U (n * i + k)
    have h2 : (C (m : ℝ) * X + C ((m : ℝ) - 1 - 2 * i)).natDegree ≤ 1 := natDegree_linear_le
    calc _ ≤ n * 1 := Nat.mul_le_mul h1 h2
      _ = n := mul_one n
  · rw [piece_right hn hm, piece_left hn hm, Nat.mul_succ]

/-- Every piecewise polynomial is one of these. -/
theorem exists_piece (hn : 1 ≤ n) (hm : 1 ≤ m) {u : ℕ → ℝ[X]} (hu : Leg.Piecewise n m u) : ∃ U, ∀ i < m, u i = piece n m U i := by
  have hm0 : (m : ℝ) ≠ 0 := by positivity
  let q : ℕ → ℝ[X] := fun i => (u i).comp (C (1 / (m : ℝ)) * X + C (-(((m : ℝ) - 1 - 2 * i) / m)))
  have hq : ∀ i < m, (q i).natDegree ≤ n := fun i hi => by
    rw [show q i = _ from rfl, natDegree_comp]
    have h2 : (C (1 / (m : ℝ)) * X + C (-(((m : ℝ) - 1 - 2 * i) / m))).natDegree ≤ 1 := natDegree_linear_le
    calc _ ≤ n * 1 := Nat.mul_le_mul (hu.degree i hi) h2
      _ = n := mul_one n
  have hqu : ∀ (i : ℕ) (x : ℝ), (q i).eval (m * x + (m - 1 - 2 * i)) = (u i).eval x := fun i x => by
    simp only [q, eval_comp, eval_add, eval_mul, eval_C, eval_X]
    congr 1
    field_simp
    ring
  choose! c hc using fun i (hi : i < m) => exists_poly hn (hq i hi)
  let U : ℕ → ℝ := fun r => if r = n * m then c (m - 1) n else c (r / n) (r % n)
  have hU : ∀ i < m, ∀ k ≤ n, U (n * i + k) = c i k := by
    intro i hi k hk
    have hle : n * i + n ≤ n * m := by rw [← Nat.mul_succ]; exact Nat.mul_le_mul_left n hi
    rcases Nat.lt_or_eq_of_le hk with hk | rfl
    · simp only [U]
      rw [if_neg (by omega), Nat.mul_add_div (by omega), Nat.div_eq_of_lt hk, add_zero, Nat.mul_add_mod, Nat.mod_eq_of_lt hk]
    · rcases Nat.lt_or_eq_of_le (Nat.succ_le_of_lt hi) with hi' | hi'
      · have hlt : k * (i + 1) < k * m := Nat.mul_lt_mul_of_pos_left hi' (by omega)
        have hs : k * i + k = k * (i + 1) := (Nat.mul_succ k i).symm
        simp only [U]
        rw [hs, if_neg (by omega), Nat.mul_div_cancel_left _ (by omega), Nat.mul_mod_right, ← poly_left hn (c (i + 1)), ← poly_right hn (c i),
          hc i hi, hc (i + 1) hi']
        have e1 := hqu i (Leg.node m (i + 1))
        have e2 := hqu (i + 1) (Leg.node m (i + 1))
        rw [Leg.arg_right hm] at e1
        rw [Leg.arg_left hm] at e2
        rw [e1, e2]
        exact (hu.cont i hi').symm
      · simp only [U]
        rw [← Nat.mul_succ, hi', if_pos rfl, show m - 1 = i by omega]
  refine ⟨U, fun i hi => ?_⟩
  refine Polynomial.funext fun x => ?_
  rw [piece_eval, poly_congr (hU i hi), hc i hi, hqu]

/-! ## The equations for the coefficients -/

/-- The equations, in the coordinates of the intervals. -/
structure Solves (n m : ℕ) (pts : ℕ → ℝ) (kx a b : ℝ) (f : ℕ → ℕ → ℝ) (U : ℕ → ℝ) : Prop where
  first : U 0 = a
  last : U (n * m) = b
  smooth : ∀ i, i + 1 < m → (derivative (poly n fun k => U (n * i + k))).eval 1 = (derivative (poly n fun k => U (n * (i + 1) + k))).eval (-1)
  inner : ∀ i < m, ∀ j, 0 < j → j < n →
    -(m : ℝ) ^ 2 * (derivative (derivative (poly n fun k => U (n * i + k)))).eval (pts j) + kx ^ 2 * (poly n fun k => U (n * i + k)).eval (pts j) = f i j

theorem solves_iff (hn : 1 ≤ n) (hm : 1 ≤ m) (kx a b : ℝ) (f : ℕ → ℕ → ℝ) (U : ℕ → ℝ) :
    Solves n m pts kx a b f U ↔ Collocation n m pts kx a b f (piece n m U) := by
  have hm0 : (m : ℝ) ≠ 0 := by positivity
  have e0 : (piece n m U 0).eval (-1) = U 0 := by
    have := piece_left hn hm U 0
    rwa [Leg.node_zero, mul_zero] at this
  have e1 : (piece n m U (m - 1)).eval 1 = U (n * m) := by
    have := piece_right hn hm U (m - 1)
    rw [Nat.sub_add_cancel hm, Leg.node_last hm, ← Nat.mul_succ, Nat.succ_eq_add_one, Nat.sub_add_cancel hm] at this
    exact this
  have e2 : ∀ i, (derivative (piece n m U i)).eval (Leg.node m (i + 1)) = (derivative (piece n m U (i + 1))).eval (Leg.node m (i + 1)) ↔
      (derivative (poly n fun k => U (n * i + k))).eval 1 = (derivative (poly n fun k => U (n * (i + 1) + k))).eval (-1) := fun i => by
    rw [piece_deriv, piece_deriv, Leg.arg_right hm, Leg.arg_left hm, mul_right_inj' hm0]
  have e3 : ∀ i j, -(derivative (derivative (piece n m U i))).eval (Leg.point m pts i j) + kx ^ 2 * (piece n m U i).eval (Leg.point m pts i j) =
      -(m : ℝ) ^ 2 * (derivative (derivative (poly n fun k => U (n * i + k)))).eval (pts j) + kx ^ 2 * (poly n fun k => U (n * i + k)).eval (pts j) := fun i j => by
    rw [piece_deriv2, piece_eval, Leg.arg_point hm, neg_mul]
  constructor
  · intro h
    exact ⟨piece_piecewise hn hm U, fun i hi => (e2 i).2 (h.smooth i hi), by rw [e0, h.first], by rw [e1, h.last],
      fun i hi j h0 h1 => by rw [e3, h.inner i hi j h0 h1]⟩
  · intro h
    exact ⟨by rw [← e0, h.left], by rw [← e1, h.right], fun i hi => (e2 i).1 (h.smooth i hi), fun i hi j h0 h1 => by rw [← e3, h.equation i hi j h0 h1]⟩

theorem solves_zero (hn : 2 ≤ n) (hm : 1 ≤ m) (hL : Lobatto n pts w) {kx : ℝ} {U : ℕ → ℝ} (h : Solves n m pts kx 0 0 (fun _ _ => 0) U) :
    ∀ r ≤ n * m, U r = 0 := by
  have hn1 : 1 ≤ n := by omega
  have hm0 : (0 : ℝ) < m := by positivity
  let p : ℕ → ℝ[X] := fun i => poly n fun k => U (n * i + k)
  have hv : ∀ i, (p i).eval (-1) = U (n * i) := fun i => by rw [show p i = _ from rfl, poly_left hn1, add_zero]
  have hv' : ∀ i, (p i).eval 1 = U (n * (i + 1)) := fun i => by rw [show p i = _ from rfl, poly_right hn1, ← Nat.mul_succ]
  have hsum : ∑ i ∈ range m, ((p i).eval 1 * (derivative (p i)).eval 1 - (p i).eval (-1) * (derivative (p i)).eval (-1)) = 0 := by
    have hs : ∀ l, l < m → ∑ i ∈ range (l + 1), ((p i).eval 1 * (derivative (p i)).eval 1 - (p i).eval (-1) * (derivative (p i)).eval (-1)) =
        (p l).eval 1 * (derivative (p l)).eval 1 := by
      intro l
      induction l with
      | zero =>
        intro _
        rw [sum_range_one, hv 0, mul_zero, h.first]
        ring
      | succ l ih =>
        intro hl
        rw [sum_range_succ, ih (by omega), hv (l + 1), ← hv' l, show (derivative (p (l + 1))).eval (-1) = (derivative (p l)).eval 1 from (h.smooth l hl).symm]
        ring
    have := hs (m - 1) (by omega)
    rw [hv' (m - 1), Nat.sub_add_cancel hm, h.last, zero_mul] at this
    exact this
  have hz : ∀ i < m, p i = 0 := by
    rcases eq_or_ne kx 0 with rfl | hk
    · have hlin : ∀ i < m, ∃ α β : ℝ, p i = C α + C β * X := fun i hi => linear_of_collocation hn hL (poly_degree hn1 _) fun j h0 h1 => by
        have := h.inner i hi j h0 h1
        have hm2 : -(m : ℝ) ^ 2 ≠ 0 := by
          have : (m : ℝ) ^ 2 ≠ 0 := by positivity
          exact neg_ne_zero.2 this
        rw [zero_pow two_ne_zero, zero_mul, add_zero] at this
        exact (mul_eq_zero.1 this).resolve_left hm2
      choose! α β hαβ using hlin
      have hnn : ∀ i < m, (p i).eval 1 * (derivative (p i)).eval 1 - (p i).eval (-1) * (derivative (p i)).eval (-1) = 2 * β i ^ 2 := fun i hi => by
        rw [hαβ i hi]
        simp
        ring
      have hβ : ∀ i < m, β i = 0 := fun i hi => by
        rw [sum_congr rfl fun i hi => hnn i (mem_range.1 hi)] at hsum
        have := (sum_eq_zero_iff_of_nonneg fun i _ => by positivity).1 hsum i (mem_range.2 hi)
        exact pow_eq_zero_iff two_ne_zero |>.1 (by linarith)
      have hα : ∀ i < m, α i = 0 := by
        intro i
        induction i with
        | zero =>
          intro hi
          have := hv 0
          rw [hαβ 0 hi, hβ 0 hi, mul_zero, h.first] at this
          simpa using this
        | succ i ih =>
          intro hi
          have e1 := hv (i + 1)
          have e2 := hv' i
          rw [hαβ i (by omega), hβ i (by omega), ih (by omega)] at e2
          rw [hαβ (i + 1) hi, hβ (i + 1) hi, ← e2] at e1
          simpa using e1
      intro i hi
      rw [hαβ i hi, hα i hi, hβ i hi]
      simp
    · have hκ : 0 < kx ^ 2 / (m : ℝ) ^ 2 := by positivity
      have hf : ∀ i < m, 0 ≤ (p i).eval 1 * (derivative (p i)).eval 1 - (p i).eval (-1) * (derivative (p i)).eval (-1) ∧
          ((p i).eval 1 * (derivative (p i)).eval 1 - (p i).eval (-1) * (derivative (p i)).eval (-1) = 0 → p i = 0) := fun i hi =>
        boundary_form hn hL hκ (poly_degree hn1 _) fun j h0 h1 => by
          have := h.inner i hi j h0 h1
          field_simp
          linarith
      exact fun i hi => (hf i hi).2 ((sum_eq_zero_iff_of_nonneg fun i hi => (hf i (mem_range.1 hi)).1).1 hsum i (mem_range.2 hi))
  intro r hr
  by_cases hrm : r = n * m
  · rw [hrm, h.last]
  · have hi : r / n < m := Nat.div_lt_of_lt_mul (by omega)
    have := poly_injective hn1 (hz _ hi) (r % n) (Nat.mod_lt r (by omega)).le
    rwa [Nat.div_add_mod] at this

end SpectralDNS.ChebH

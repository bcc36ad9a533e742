import Verif.Model.ChebEvenOdd
import Verif.Props.ChebNonhomo

/-!
# C126: the even/odd solver of sandbox/cheb_helmholtz_sft.py

The two systems are the even and the odd part of the Galerkin system for Gauss-Lobatto quadrature, for every number of points; the call in the script hands over two
numbers too many, and fails.
-/

namespace SpectralDNS.Sandbox.EvenOdd

open Polynomial Polynomial.Chebyshev Real Finset Channel Nonhomo

/-- The call in the script fails for every number of points: `fk` has `N` entries, the two systems `N-2` unknowns. -/
theorem C126_called_false (N : ℕ) (hN : 4 ≤ N) (kx : ℝ) (f : ℕ → ℝ) : called N kx f = none := by
  simp only [called, solve, spsolve]
  rw [if_neg (by omega)]
  rfl

/-- The whole matrix. -/
noncomputable def full (N : ℕ) (kx : ℝ) (i j : ℕ) : ℝ := ADDmat i j + kx ^ 2 *
  if i = j then π / 2 * (ck true N i + ck true N (i + 2)) else if j = i + 2 ∨ i = j + 2 then -(π / 2) else 0

theorem full_entry (n : ℕ) (kx : ℝ) : (Matrix.of fun i j : Fin (n + 2) => full (n + 4) kx i j) =
    -entry .GL (n + 4) phi phi 2 (n + 2) (n + 2) + kx ^ 2 • entry .GL (n + 4) phi phi 0 (n + 2) (n + 2) := by
  have h2 := entry_stiff .GL n
  have h0 := entry_mass .GL n
  ext i j
  have e2 := congrFun (congrFun h2 i) j
  have e0 := congrFun (congrFun h0 i) j
  rw [Matrix.map_apply, stiffMatrix] at e2
  rw [Matrix.map_apply, massMatrix] at e0
  rw [Matrix.of_apply, Matrix.add_apply, Matrix.neg_apply, Matrix.smul_apply, smul_eq_mul, full]
  apply Complex.ofReal_injective
  push_cast
  rw [e2, e0, ADDmat]
  simp only [Fin.ext_iff, Fin.lt_def, decide_true]
  split_ifs <;> push_cast <;> ring

theorem full_det (n : ℕ) (kx : ℝ) : (Matrix.of fun i j : Fin (n + 2) => full (n + 4) kx i j).det ≠ 0 := by
  rw [full_entry]
  refine det_ne_zero _ fun x hx => ?_
  have h1 := second_neg .GL (n + 4) (n + 2) phi 2 (by omega) (by omega) degree_phi expand_phi x hx
  have h2 := mass_pos .GL (n + 4) (n + 2) phi 2 (by omega) (by omega) degree_phi x hx
  rw [Matrix.add_mulVec, Matrix.neg_mulVec, Matrix.smul_mulVec, dotProduct_add, dotProduct_neg, dotProduct_smul, smul_eq_mul]
  nlinarith [mul_nonneg (sq_nonneg kx) h2.le]

theorem full_parity (N : ℕ) (kx : ℝ) (i j : ℕ) (h : i % 2 ≠ j % 2) : full N kx i j = 0 := by
  rw [full, ADDmat, if_neg (by rintro rfl; exact h rfl), if_neg (by omega), if_neg (by rintro rfl; exact h rfl), if_neg (by omega)]
  ring

/-- Only the coefficients of one parity occur in an equation. -/
theorem sum_parity {F : ℕ → ℕ → ℝ} (hF : ∀ i j, i % 2 ≠ j % 2 → F i j = 0) {L m r : ℕ} (hr : r < 2) (h1 : ∀ p < m, 2 * p + r < L)
    (h2 : ∀ i < L, i % 2 = r → i / 2 < m) (c : ℕ → ℝ) (p : ℕ) :
    ∑ j ∈ range L, F (2 * p + r) j * c j = ∑ q ∈ range m, F (2 * p + r) (2 * q + r) * c (2 * q + r) := by
  rw [← sum_image (s := range m) (g := fun q => 2 * q + r) (f := fun j => F (2 * p + r) j * c j) (fun a _ b _ h => by simpa using h)]
  refine (sum_subset ?_ ?_).symm
  · intro j hj
    obtain ⟨q, hq, rfl⟩ := mem_image.1 hj
    exact mem_range.2 (h1 q (mem_range.1 hq))
  · intro j hj hn
    rw [hF _ _ ?_, zero_mul]
    intro h
    exact hn (mem_image.2 ⟨j / 2, mem_range.2 (h2 j (mem_range.1 hj) (by omega)), by omega⟩)

theorem block_det {F : ℕ → ℕ → ℝ} (hF : ∀ i j, i % 2 ≠ j % 2 → F i j = 0) {L m r : ℕ} (hr : r < 2) (h1 : ∀ p < m, 2 * p + r < L)
    (h2 : ∀ i < L, i % 2 = r → i / 2 < m) (hd : (Matrix.of fun i j : Fin L => F i j).det ≠ 0) :
    (Matrix.of fun p q : Fin m => F (2 * p + r) (2 * q + r)).det ≠ 0 := by
  intro h0
  obtain ⟨x, hx, hx0⟩ := Matrix.exists_mulVec_eq_zero_iff.2 h0
  let c : ℕ → ℝ := fun k => if h : k % 2 = r ∧ k / 2 < m then x ⟨k / 2, h.2⟩ else 0
  have hc : ∀ q : Fin m, c (2 * q + r) = x q := fun q => by
    have : (2 * (q : ℕ) + r) % 2 = r ∧ (2 * (q : ℕ) + r) / 2 < m := ⟨by omega, by have := q.2; omega⟩
    rw [show c (2 * q + r) = x ⟨(2 * (q : ℕ) + r) / 2, this.2⟩ from dif_pos this]
    congr 1
    exact Fin.ext (by dsimp only; omega)
  have hs : ∀ i < L, ∑ j ∈ range L, F i j * c j = (fun _ => (0 : ℝ)) i := fun i hi => by
    by_cases hp : i % 2 = r
    · have hi2 : i = 2 * (i / 2) + r := by omega
      rw [hi2, sum_parity hF hr h1 h2, sum_range]
      have := congrFun hx0 ⟨i / 2, h2 i hi hp⟩
      simp only [Matrix.mulVec, dotProduct, Matrix.of_apply, Pi.zero_apply] at this
      rw [← this]
      exact sum_congr rfl fun q _ => by rw [hc]
    · refine sum_eq_zero fun j _ => ?_
      by_cases hj : j % 2 = r
      · rw [hF i j (by omega), zero_mul]
      · rw [show c j = 0 from dif_neg (by tauto), mul_zero]
  have e1 := (linsolve_spec L F _ hd c).1 hs
  have e2 := (linsolve_spec L F (fun _ => 0) hd fun _ => 0).1 fun i _ => by simp
  refine hx (funext fun q => ?_)
  rw [← hc, ← e1 _ (h1 q q.2), e2 _ (h1 q q.2)]
  rfl

theorem diag_list (M : ℕ) (d g : ℕ → ℝ) (i j : ℕ) (hj : j < M + 1) :
    diags (([d] ++ (List.range' 1 M).map fun _ => g).zip (List.range' 0 (M + 1))) i j = if i = j then d i else if i < j then g i else 0 := by
  have hz : ∀ L : List ℕ, (L.map fun _ => g).zip L = L.map fun x => (g, x) := fun L => by
    induction L with
    | nil => rfl
    | cons a L ih => rw [List.map_cons, List.zip_cons_cons, ih, List.map_cons]
  simp only [List.range'_succ, List.cons_append, List.nil_append, List.zip_cons_cons, diags, List.foldl_cons, hz, zero_add]
  rw [diagLoop]
  by_cases hd : i = j
  · subst hd
    rw [if_neg, if_pos (by omega), if_pos rfl]
    rintro ⟨l, hl, h1⟩
    have := List.mem_range'_1.1 hl
    omega
  · rw [if_neg hd]
    by_cases h2 : i < j
    · rw [if_pos ⟨j - i, List.mem_range'_1.2 (by omega), by omega⟩, if_pos h2]
    · rw [if_neg, if_neg (by omega), if_neg h2]
      rintro ⟨l, hl, h1⟩
      omega

theorem even_full (n : ℕ) (kx : ℝ) (i j : ℕ) (hi : i < (n + 1) / 2 + 1) (hj : j < (n + 1) / 2 + 1) :
    A_e ((n + 1) / 2) i j + kx ^ 2 * B_e (n + 4) ((n + 1) / 2) i j = full (n + 4) kx (2 * i + 0) (2 * j + 0) := by
  rw [A_e, diag_list _ _ _ _ _ hj, full, ADDmat, B_e]
  simp only [tridiags, ck, eq_self, true_and]
  congr 1
  · split_ifs <;> first | omega | (push_cast; ring)
  · congr 1
    by_cases h : i = j
    · subst h
      rw [if_pos rfl, if_pos rfl]
      by_cases hN : (n + 4) % 2 = 1
      · rw [if_pos hN]
        by_cases h0 : i = 0
        · subst h0
          by_cases hM : (n + 1) / 2 = 0
          · omega
          · rw [Function.update_of_ne (by omega)]
            simp [show ¬ (2 + 1 = n + 4) by omega]; ring
        · by_cases hM : i = (n + 1) / 2
          · rw [← hM]
            rw [Function.update_self, Function.update_of_ne h0]
            rw [if_neg (by omega), if_pos (by omega)]; ring
          · rw [Function.update_of_ne hM, Function.update_of_ne h0, if_neg (by omega), if_neg (by omega)]; ring
      · rw [if_neg hN]
        by_cases h0 : i = 0
        · subst h0
          simp [show ¬ (2 + 1 = n + 4) by omega]; ring
        · rw [Function.update_of_ne h0, if_neg (by omega), if_neg (by omega)]; ring
    · split_ifs <;> first | omega | ring

theorem odd_full (n : ℕ) (kx : ℝ) (i j : ℕ) (hi : i < n / 2 + 1) (hj : j < n / 2 + 1) :
    A_o (n / 2) i j + kx ^ 2 * B_o (n + 4) (n / 2) i j = full (n + 4) kx (2 * i + 1) (2 * j + 1) := by
  rw [A_o, diag_list _ _ _ _ _ hj, full, ADDmat, B_o]
  simp only [tridiags, ck, eq_self, true_and]
  congr 1
  · split_ifs <;> first | omega | (push_cast; ring)
  · congr 1
    by_cases h : i = j
    · subst h
      rw [if_pos rfl, if_pos rfl]
      by_cases hN : (n + 4) % 2 = 0
      · rw [if_pos hN]
        by_cases hM : i = n / 2
        · rw [← hM, Function.update_self, if_neg (by omega), if_pos (by omega)]; ring
        · rw [Function.update_of_ne hM, if_neg (by omega), if_neg (by omega)]; ring
      · rw [if_neg hN, if_neg (by omega), if_neg (by omega)]; ring
    · split_ifs <;> first | omega | ring

/-- Without the two superfluous numbers `solve` returns the solution of the whole system. -/
theorem solve_full (n : ℕ) (kx : ℝ) (fk : ℕ → ℝ) : ∃ uk, solve (n + 4) kx (n + 2) fk = some uk ∧
    ∀ k < n + 2, uk k = linsolve (n + 2) (full (n + 4) kx) fk k := by
  have hM : (n + 4 - 3) / 2 = (n + 1) / 2 := by omega
  have hMo : (n + 4 - 4) / 2 = n / 2 := by omega
  simp only [solve, spsolve, hM, hMo]
  rw [if_pos (by omega), if_pos (by omega)]
  refine ⟨_, rfl, fun k hk => ?_⟩
  have hx := (linsolve_spec (n + 2) (full (n + 4) kx) fk (full_det n kx) (linsolve (n + 2) (full (n + 4) kx) fk)).2 fun _ _ => rfl
  have he1 : ∀ p < (n + 1) / 2 + 1, 2 * p + 0 < n + 2 := by omega
  have he2 : ∀ i < n + 2, i % 2 = 0 → i / 2 < (n + 1) / 2 + 1 := by omega
  have ho1 : ∀ p < n / 2 + 1, 2 * p + 1 < n + 2 := by omega
  have ho2 : ∀ i < n + 2, i % 2 = 1 → i / 2 < n / 2 + 1 := by omega
  by_cases hp : k % 2 = 0
  · rw [if_pos hp, linsolve_congr _ _ _ _ (fun i hi j hj => even_full n kx i j hi hj), (linsolve_spec _ (fun p q => full (n + 4) kx (2 * p + 0) (2 * q + 0)) _
      (block_det (full_parity (n + 4) kx) (by omega) he1 he2 (full_det n kx)) fun q => linsolve (n + 2) (full (n + 4) kx) fk (2 * q + 0)).1 ?_ _ (by omega)]
    · congr 1; omega
    · intro i hi
      rw [← sum_parity (full_parity (n + 4) kx) (by omega) he1 he2, hx _ (he1 i hi), add_zero]
  · rw [if_neg hp, linsolve_congr _ _ _ _ (fun i hi j hj => odd_full n kx i j hi hj), (linsolve_spec _ (fun p q => full (n + 4) kx (2 * p + 1) (2 * q + 1)) _
      (block_det (full_parity (n + 4) kx) (by omega) ho1 ho2 (full_det n kx)) fun q => linsolve (n + 2) (full (n + 4) kx) fk (2 * q + 1)).1 ?_ _ (by omega)]
    · congr 1; omega
    · intro i hi
      rw [← sum_parity (full_parity (n + 4) kx) (by omega) ho1 ho2, hx _ (ho1 i hi)]

theorem full_sum (n : ℕ) (kx : ℝ) (c : ℕ → ℝ) (i : ℕ) (hi : i < n + 2) :
    ∑ j ∈ range (n + 2), full (n + 4) kx i j * c j = quadrature .GL (n + 4) (operator kx (shen (n + 4) c) * phi i) := by
  have h : ∀ j : Fin (n + 2), full (n + 4) kx i j = quadrature .GL (n + 4) (operator kx (phi j) * phi i) := fun j => by
    have := congrFun (congrFun (full_entry n kx) ⟨i, hi⟩) j
    rw [Matrix.of_apply, Matrix.add_apply, Matrix.neg_apply, Matrix.smul_apply, entry, entry, ← map_neg, ← map_smul, ← map_add] at this
    rw [this]
    congr 1
    simp only [operator, Function.iterate_succ, Function.iterate_zero, Function.comp, id, smul_eq_C_mul]
    ring
  have hl : operator kx (shen (n + 4) c) = ∑ j ∈ range (n + 2), c j • operator kx (phi j) := by
    simp only [operator, shen, show n + 4 - 2 = n + 2 from rfl, Polynomial.derivative_sum, derivative_smul, smul_add, smul_neg, sum_add_distrib, sum_neg_distrib,
      mul_sum, mul_smul_comm]
  rw [sum_range, hl, sum_mul, map_sum, sum_range]
  refine sum_congr rfl fun j _ => ?_
  rw [h, smul_mul_assoc, map_smul, smul_eq_mul, mul_comm]

/-- Given an array of `N-2` numbers, the branch returns the coefficients of the one combination of the basis `T_k - T_{k+2}` whose residual has the given inner
products with the basis, for Gauss-Lobatto quadrature.  Missing: the script hands over `N` numbers (`C126_called_false`). -/
theorem C126_galerkin_partial (n : ℕ) (kx : ℝ) (fk : ℕ → ℝ) : ∃ uk, solve (n + 4) kx (n + 2) fk = some uk ∧
    ∀ c : ℕ → ℝ, (∀ k < n + 2, uk k = c k) ↔ ∀ i < n + 2, quadrature .GL (n + 4)
      (operator kx (∑ k ∈ range (n + 2), c k • (T ℝ (k : ℤ) - T ℝ ((k + 2 : ℕ) : ℤ))) * (T ℝ (i : ℤ) - T ℝ ((i + 2 : ℕ) : ℤ))) = fk i := by
  obtain ⟨uk, h1, h2⟩ := solve_full n kx fk
  refine ⟨uk, h1, fun c => ?_⟩
  have h3 : (∀ k < n + 2, uk k = c k) ↔ ∀ k < n + 2, linsolve (n + 2) (full (n + 4) kx) fk k = c k :=
    forall₂_congr fun k hk => by rw [h2 k hk]
  rw [h3, ← linsolve_spec _ _ _ (full_det n kx)]
  refine forall₂_congr fun i hi => ?_
  rw [full_sum n kx c i hi]
  rfl

/-- For the right-hand side of a polynomial that vanishes at both ends it returns the coefficients of this polynomial.  Missing: the script hands over `N` numbers. -/
theorem C126_exact_partial (n : ℕ) (kx : ℝ) (u : ℝ[X]) (hu : Dirichlet (n + 4) u) : ∃ uk,
    solve (n + 4) kx (n + 2) (fun i => quadrature .GL (n + 4) (operator kx u * (T ℝ (i : ℤ) - T ℝ ((i + 2 : ℕ) : ℤ)))) = some uk ∧
    ∑ k ∈ range (n + 2), uk k • (T ℝ (k : ℤ) - T ℝ ((k + 2 : ℕ) : ℤ)) = u := by
  obtain ⟨c, rfl⟩ := exists_shen n u hu
  obtain ⟨uk, h1, h2⟩ := C126_galerkin_partial n kx fun i => quadrature .GL (n + 4) (operator kx (shen (n + 4) c) * (T ℝ (i : ℤ) - T ℝ ((i + 2 : ℕ) : ℤ)))
  refine ⟨uk, h1, ?_⟩
  have h3 := (h2 c).2 fun i _ => rfl
  exact sum_congr rfl fun k hk => by rw [h3 k (mem_range.1 hk), phi]

/-- `1 - x⁴` with five points meets the hypothesis; it is not a basis function. -/
example (kx : ℝ) : ∃ uk, solve 5 kx 3 (fun i => quadrature .GL 5 (operator kx (1 - X ^ 4) * (T ℝ (i : ℤ) - T ℝ ((i + 2 : ℕ) : ℤ)))) = some uk ∧
    ∑ k ∈ range 3, uk k • (T ℝ (k : ℤ) - T ℝ ((k + 2 : ℕ) : ℤ)) = 1 - X ^ 4 := by
  refine C126_exact_partial 1 kx _ ⟨?_, by simp, by norm_num⟩
  refine lt_of_le_of_lt (degree_sub_le _ _) (max_lt ?_ ?_)
  · rw [degree_one]; norm_num
  · rw [degree_X_pow]; norm_num

end SpectralDNS.Sandbox.EvenOdd

import Verif.Lemmas.LUsolve

/-!
# C39: `Mult_Div`
-/

namespace SpectralDNS.LUsolve

open Polynomial Polynomial.Chebyshev Finset SpectralDNS.Spec.Cheb MeasureTheory

/-! ## The weighted integral -/

theorem integrable_complex (p : ℂ[X]) : Integrable (fun x : ℝ => p.eval (x : ℂ)) measureT := by
  have hc : Continuous fun x : ℝ => p.eval (x : ℂ) := p.continuous.comp Complex.continuous_ofReal
  refine Integrable.re_im_iff.1 ⟨?_, ?_⟩
  · exact integrable_measureT (Complex.continuous_re.comp hc).continuousOn
  · exact integrable_measureT (Complex.continuous_im.comp hc).continuousOn

theorem weighted_add (p q : ℂ[X]) : weighted (p + q) = weighted p + weighted q := by
  unfold weighted
  simp_rw [eval_add]
  exact integral_add (integrable_complex p) (integrable_complex q)

theorem weighted_smul (c : ℂ) (p : ℂ[X]) : weighted (c • p) = c * weighted p := by
  unfold weighted
  simp_rw [eval_smul, smul_eq_mul]
  exact integral_const_mul _ _

theorem weighted_sum {ι : Type*} (s : Finset ι) (p : ι → ℂ[X]) : weighted (∑ i ∈ s, p i) = ∑ i ∈ s, weighted (p i) := by
  classical
  refine Finset.induction_on s ?_ fun a s ha ih => ?_
  · simp [weighted]
  · rw [sum_insert ha, sum_insert ha, weighted_add, ih]

theorem weighted_TT (a b : ℕ) : weighted (T ℂ (a : ℤ) * T ℂ (b : ℤ)) = if a = b then (if a = 0 then (Real.pi : ℂ) else Real.pi / 2) else 0 := by
  unfold weighted
  have : ∀ x : ℝ, (T ℂ (a : ℤ) * T ℂ (b : ℤ)).eval (x : ℂ) = (((T ℝ (a : ℤ)).eval x * (T ℝ (b : ℤ)).eval x : ℝ) : ℂ) := by
    intro x
    rw [eval_mul, Complex.ofReal_mul, complex_ofReal_eval_T, complex_ofReal_eval_T]
  simp_rw [this]
  rw [integral_complex_ofReal]
  by_cases hab : a = b
  · subst hab
    rw [if_pos rfl]
    by_cases h0 : a = 0
    · subst h0
      rw [if_pos rfl]
      exact congrArg _ integral_eval_T_real_mul_self_measureT_zero
    · rw [if_neg h0, integral_T_real_mul_self_measureT_of_ne_zero h0]
      push_cast; rfl
  · rw [if_neg hab, integral_eval_T_real_mul_eval_T_real_measureT_of_ne hab]
    rfl

/-- The product of a Chebyshev series with `T_k`, `0 < k < N`. -/
theorem weighted_series (N : ℕ) (c : ℕ → ℂ) (k : ℕ) (hk : 0 < k) (hkN : k < N) : weighted (series N c * T ℂ (k : ℤ)) = Real.pi / 2 * c k := by
  unfold series
  rw [sum_mul, weighted_sum]
  have : ∀ n ∈ range N, weighted (c n • T ℂ (n : ℤ) * T ℂ (k : ℤ)) = if n = k then Real.pi / 2 * c k else 0 := by
    intro n _
    rw [smul_mul_assoc, weighted_smul, weighted_TT]
    by_cases h : n = k
    · subst h
      rw [if_pos rfl, if_pos rfl, if_neg (by omega)]; ring
    · rw [if_neg h, if_neg h, mul_zero]
  rw [sum_congr rfl this, sum_ite_eq', if_pos (mem_range.2 hkN)]

/-- Chebyshev coefficients of an element of the Dirichlet space. -/
def tcoef (N : ℕ) (v : ℕ → ℂ) (n : ℕ) : ℂ := ext N v n - (if 2 ≤ n then ext N v (n - 2) else 0)

theorem dirichlet_series (N : ℕ) (hN : 2 ≤ N) (v : ℕ → ℂ) : dirichlet N v = series N (tcoef N v) := by
  unfold dirichlet series tcoef
  simp_rw [smul_sub, sub_smul]
  rw [sum_sub_distrib, sum_sub_distrib]
  congr 1
  · have : ∀ n ∈ range N, ext N v n • T ℂ (n : ℤ) = if n ∈ range (N - 2) then v n • T ℂ (n : ℤ) else 0 := by
      intro n _
      by_cases h : n < N - 2
      · rw [ext_lt _ _ _ h, if_pos (mem_range.2 h)]
      · rw [ext_ge _ _ _ (by omega), if_neg (fun hc => h (mem_range.1 hc)), zero_smul]
    rw [sum_congr rfl this, sum_ite_mem, inter_eq_right.2 (range_subset_range.2 (by omega))]
  · obtain ⟨N, rfl⟩ : ∃ K, N = K + 2 := ⟨N - 2, by omega⟩
    rw [Nat.add_sub_cancel, sum_range_succ', sum_range_succ']
    simp only [show ¬ (2 ≤ 0) by omega, show ¬ (2 ≤ 0 + 1) by omega, if_false, zero_smul, add_zero]
    refine sum_congr rfl fun n hn => ?_
    rw [if_pos (by omega), show n + 1 + 1 - 2 = n by omega, ext_lt _ _ _ (by have := mem_range.1 hn; omega)]

/-! ## The rows -/

/-- Coefficients of the Chebyshev series of `u' + i m v + i n w`. -/
noncomputable def ecoef (N : ℕ) (m n : ℝ) (u v w : ℕ → ℂ) (k : ℕ) : ℂ :=
  dcoef N u k + Complex.I * m * tcoef N v k + Complex.I * n * tcoef N w k

theorem div_series (N : ℕ) (hN : 2 ≤ N) (m n : ℝ) (u v w : ℕ → ℂ) :
    derivative (dirichlet N u) + (Complex.I * m) • dirichlet N v + (Complex.I * n) • dirichlet N w = series N (ecoef N m n u v w) := by
  rw [derivative_dirichlet N hN, dirichlet_series N hN, dirichlet_series N hN]
  unfold series ecoef
  rw [smul_sum, smul_sum, ← sum_add_distrib, ← sum_add_distrib]
  refine sum_congr rfl fun k _ => ?_
  rw [add_smul, add_smul, smul_smul, smul_smul]

theorem row_projection (N : ℕ) (m n : ℝ) (u v w : ℕ → ℂ) (k : ℕ) (hk : 0 < k) (hkN : k + 2 < N) :
    weighted ((derivative (dirichlet N u) + (Complex.I * m) • dirichlet N v + (Complex.I * n) • dirichlet N w) * neumann k) =
      Real.pi / 2 * (ecoef N m n u v w k - ((k : ℂ) / (k + 2)) ^ 2 * ecoef N m n u v w (k + 2)) := by
  rw [div_series N (by omega)]
  unfold neumann
  rw [mul_sub, sub_eq_add_neg, weighted_add, ← neg_one_smul ℂ, weighted_smul, mul_smul_comm, weighted_smul,
    weighted_series N _ k hk (by omega), weighted_series N _ (k + 2) (by omega) hkN]
  ring

/-- The projection written with the coefficients of the expansions, continued by zero. -/
noncomputable def row (N : ℕ) (m n : ℝ) (u v w : ℕ → ℂ) (i : ℕ) : ℂ :=
  let q : ℂ := (((i : ℂ) + 1) / ((i : ℂ) + 1 + 2)) ^ 2
  Real.pi / 2 * (-2 * ((i : ℂ) + 2) * ext N u i + (-4 + q * (2 * ((i : ℂ) + 4))) * ext N u (i + 2) + (-4 + 4 * q) * tail N u (i + 4)
    + Complex.I * (m * ((1 + q) * ext N v (i + 1) - (if 1 ≤ i then ext N v (i - 1) else 0) - q * ext N v (i + 3))
      + n * ((1 + q) * ext N w (i + 1) - (if 1 ≤ i then ext N w (i - 1) else 0) - q * ext N w (i + 3))))

theorem row_eq (N : ℕ) (m n : ℝ) (u v w : ℕ → ℂ) (i : ℕ) (hi : i + 3 < N) :
    weighted ((derivative (dirichlet N u) + (Complex.I * m) • dirichlet N v + (Complex.I * n) • dirichlet N w) * neumann (i + 1)) = row N m n u v w i := by
  rw [row_projection N m n u v w (i + 1) (by omega) (by omega)]
  unfold row ecoef dcoef tcoef
  simp only [show ¬ (i + 1 = 0) by omega, show ¬ (i + 1 + 2 = 0) by omega, if_false, Nat.add_sub_cancel]
  rw [tail_eq N u (i + 1 + 1), if_pos (by omega : 2 ≤ i + 1 + 2), if_pos (by omega : 2 ≤ i + 1 + 2), show i + 1 + 2 - 1 = i + 2 by omega]
  have h1 : (2 ≤ i + 1) ↔ 1 ≤ i := by omega
  simp only [h1, show i + 1 - 2 = i - 1 by omega, show i + 1 + 1 + 2 = i + 4 by omega,
    show i + 1 + 1 = i + 2 by omega, show i + 1 + 2 = i + 3 by omega]
  push_cast
  ring

/-! ## The program -/

/-- The matrix entries without their bounds. -/
theorem entries (i : ℕ) :
    ((bii i : ℝ) : ℂ) = Real.pi / 2 * (1 + (((i : ℂ) + 1) / ((i : ℂ) + 1 + 2)) ^ 2) ∧ ((cm1 i : ℝ) : ℂ) = -((i : ℂ) + 2) * Real.pi := by
  constructor
  · unfold bii; push_cast; norm_num
  · unfold cm1; push_cast; norm_num; ring

theorem bp2_eq {M i : ℕ} (h : i < M - 2) : ((bp2 M i : ℝ) : ℂ) = -(Real.pi / 2 * (((i : ℂ) + 1) / ((i : ℂ) + 1 + 2)) ^ 2) := by
  unfold bp2; rw [if_pos h]; push_cast; norm_num; ring

theorem bm2_eq {M i : ℕ} (h1 : 1 ≤ i) (h : i < M) : ((bm2 M i : ℝ) : ℂ) = -(Real.pi / 2) := by
  unfold bm2; rw [if_pos ⟨h1, h⟩]; push_cast; norm_num; ring

theorem cp1_eq {M i : ℕ} (h : i < M - 1) : ((cp1 M i : ℝ) : ℂ) = -Real.pi * (2 - (((i : ℂ) + 1) / ((i : ℂ) + 1 + 2)) ^ 2 * ((i : ℂ) + 4)) := by
  unfold cp1; rw [if_pos h]; push_cast; norm_num
  left; ring

theorem cp3_eq {M i : ℕ} (h : i < M - 3) : ((cp3 M i : ℝ) : ℂ) = -2 * Real.pi * (1 - (((i : ℂ) + 1) / ((i : ℂ) + 1 + 2)) ^ 2) := by
  unfold cp3; rw [if_pos h]; push_cast; norm_num

/-- State when the loop is about to treat row `r`. -/
structure DInv (N : ℕ) (m n : ℝ) (u v w b0 : ℕ → ℂ) (r : ℕ) (s : Div) : Prop where
  vals : ∀ i, r < i → i < N - 3 → s.b i = row N m n u v w i
  frame : ∀ i, N - 3 ≤ i → s.b i = b0 i
  even : s.s0 = tail N u (if r % 2 = 0 then r + 6 else r + 5)
  odd : s.s1 = tail N u (if r % 2 = 0 then r + 5 else r + 6)

theorem div_step {N : ℕ} {m n : ℝ} {u v w b0 : ℕ → ℂ} {r : ℕ} {s : Div} (h : DInv N m n u v w b0 (r + 1) s) (hr : r + 1 ≤ N - 3 - 4) (hN : 7 ≤ N) :
    DInv N m n u v w b0 r (divBody (N - 3) m n u v w (r + 1) s) := by
  have hval : ∀ t : ℂ, t = tail N u (r + 1 + 4) → ∀ x : ℂ, x = (m * bm2 (N - 3) (r + 1) * v (r + 1 - 1) + n * bm2 (N - 3) (r + 1) * w (r + 1 - 1)
      + m * bii (r + 1) * v (r + 1 + 1) + n * bii (r + 1) * w (r + 1 + 1)
      + m * bp2 (N - 3) (r + 1) * v (r + 1 + 3) + n * bp2 (N - 3) (r + 1) * w (r + 1 + 3)) * Complex.I
      + cm1 (r + 1) * u (r + 1) + cp1 (N - 3) (r + 1) * u (r + 1 + 2) → x + t * cp3 (N - 3) (r + 1) = row N m n u v w (r + 1) := by
    intro t ht x hx
    rw [hx, ht, bm2_eq (by omega) (by omega), (entries (r + 1)).1, (entries (r + 1)).2, bp2_eq (by omega), cp1_eq (by omega), cp3_eq (by omega)]
    unfold row
    rw [if_pos (by omega), if_pos (by omega), ext_lt, ext_lt, ext_lt, ext_lt, ext_lt, ext_lt, ext_lt, ext_lt]
    · ring
    all_goals omega
  have hwr : ∀ (x t : ℂ), x + t * cp3 (N - 3) (r + 1) = row N m n u v w (r + 1) →
      (∀ i, r < i → i < N - 3 → Function.update (Function.update s.b (r + 1) x) (r + 1)
        (Function.update s.b (r + 1) x (r + 1) + t * cp3 (N - 3) (r + 1)) i = row N m n u v w i) ∧
      (∀ i, N - 3 ≤ i → Function.update (Function.update s.b (r + 1) x) (r + 1)
        (Function.update s.b (r + 1) x (r + 1) + t * cp3 (N - 3) (r + 1)) i = b0 i) := by
    intro x t hy
    constructor
    · intro i hi hiN
      by_cases hc : i = r + 1
      · subst hc; rw [Function.update_self, Function.update_self, hy]
      · rw [Function.update_of_ne hc, Function.update_of_ne hc]; exact h.vals i (by omega) hiN
    · intro i hi
      have hc : i ≠ r + 1 := by omega
      rw [Function.update_of_ne hc, Function.update_of_ne hc]; exact h.frame i hi
  unfold divBody
  by_cases hp : (r + 1) % 2 = 0
  · simp only [if_pos hp]
    have ht : s.s0 + u (r + 1 + 4) = tail N u (r + 1 + 4) := by
      rw [tail_eq N u (r + 1 + 4), ext_lt _ _ _ (by omega), h.even, if_pos hp, add_comm]
    obtain ⟨h1, h2⟩ := hwr _ _ (hval _ ht _ rfl)
    refine ⟨h1, h2, ?_, ?_⟩
    · rw [if_neg (by omega)]; exact ht
    · rw [if_neg (by omega), h.odd, if_pos hp]
  · simp only [if_neg hp]
    have ht : s.s1 + u (r + 1 + 4) = tail N u (r + 1 + 4) := by
      rw [tail_eq N u (r + 1 + 4), ext_lt _ _ _ (by omega), h.odd, if_neg hp, add_comm]
    obtain ⟨h1, h2⟩ := hwr _ _ (hval _ ht _ rfl)
    refine ⟨h1, h2, ?_, ?_⟩
    · rw [if_pos (by omega), h.even, if_neg hp]
    · rw [if_pos (by omega)]; exact ht

theorem div_start {N : ℕ} (hN : 7 ≤ N) (m n : ℝ) (u v w b : ℕ → ℂ) :
    let M := N - 3
    let b1 := Function.update b (M - 1) ((m * bm2 M (M - 1) * v (M - 2) + n * bm2 M (M - 1) * w (M - 2)
      + m * bii (M - 1) * v M + n * bii (M - 1) * w M) * Complex.I + cm1 (M - 1) * u (M - 1))
    let b2 := Function.update b1 (M - 2) ((m * bm2 M (M - 2) * v (M - 3) + n * bm2 M (M - 2) * w (M - 3)
      + m * bii (M - 2) * v (M - 1) + n * bii (M - 2) * w (M - 1)) * Complex.I + cm1 (M - 2) * u (M - 2) + cp1 M (M - 2) * u M)
    let b3 := Function.update b2 (M - 3) ((m * bm2 M (M - 3) * v (M - 4) + n * bm2 M (M - 3) * w (M - 4)
      + m * bii (M - 3) * v (M - 2) + n * bii (M - 3) * w (M - 2)
      + m * bp2 M (M - 3) * v M + n * bp2 M (M - 3) * w M) * Complex.I + cm1 (M - 3) * u (M - 3) + cp1 M (M - 3) * u (M - 1))
    DInv N m n u v w b (M - 4) ⟨b3, 0, 0⟩ := by
  obtain ⟨K, rfl⟩ : ∃ K, N = K + 7 := ⟨N - 7, by omega⟩
  simp only [show K + 7 - 3 = K + 4 by omega, show K + 4 - 1 = K + 3 by omega, show K + 4 - 2 = K + 2 by omega,
    show K + 4 - 3 = K + 1 by omega, show K + 4 - 4 = K by omega]
  refine ⟨fun i hi hiN => ?_, fun i hi => ?_, ?_, ?_⟩ <;> dsimp only
  · obtain rfl | rfl | rfl : i = K + 1 ∨ i = K + 2 ∨ i = K + 3 := by omega
    · rw [Function.update_self, bm2_eq (by omega) (by omega), (entries _).1, (entries _).2, bp2_eq (by omega), cp1_eq (by omega)]
      unfold row
      rw [if_pos (by omega), if_pos (by omega), tail_zero _ _ _ (by omega), ext_lt, ext_lt, ext_lt, ext_lt, ext_lt, ext_lt, ext_lt, ext_lt]
      · simp only [show K + 1 + 1 = K + 2 by omega, show K + 1 + 3 = K + 4 by omega, show K + 1 + 2 = K + 3 by omega, show K + 1 - 1 = K by omega]
        ring
      all_goals omega
    · rw [Function.update_of_ne (by omega), Function.update_self, bm2_eq (by omega) (by omega), (entries _).1, (entries _).2, cp1_eq (by omega)]
      unfold row
      rw [if_pos (by omega), if_pos (by omega), tail_zero _ _ _ (by omega), ext_ge _ v (K + 2 + 3) (by omega), ext_ge _ w (K + 2 + 3) (by omega),
        ext_lt, ext_lt, ext_lt, ext_lt, ext_lt, ext_lt]
      · simp only [show K + 2 + 1 = K + 3 by omega, show K + 2 + 2 = K + 4 by omega, show K + 2 - 1 = K + 1 by omega]
        ring
      all_goals omega
    · rw [Function.update_of_ne (by omega), Function.update_of_ne (by omega), Function.update_self, bm2_eq (by omega) (by omega), (entries _).1, (entries _).2]
      unfold row
      rw [if_pos (by omega), if_pos (by omega), tail_zero _ _ _ (by omega), ext_ge _ v (K + 3 + 3) (by omega), ext_ge _ w (K + 3 + 3) (by omega),
        ext_ge _ u (K + 3 + 2) (by omega), ext_lt, ext_lt, ext_lt, ext_lt, ext_lt]
      · simp only [show K + 3 + 1 = K + 4 by omega, show K + 3 - 1 = K + 2 by omega]
        ring
      all_goals omega
  · rw [Function.update_of_ne (by omega), Function.update_of_ne (by omega), Function.update_of_ne (by omega)]
  · rw [tail_zero _ _ _ (by split_ifs <;> omega)]
  · rw [tail_zero _ _ _ (by split_ifs <;> omega)]

theorem multDiv1D_spec {N : ℕ} (hN : 7 ≤ N) (m n : ℝ) (u v w b : ℕ → ℂ) :
    (∀ i < N - 3, multDiv1D N m n u v w b i = row N m n u v w i) ∧ ∀ i, N - 3 ≤ i → multDiv1D N m n u v w b i = b i := by
  have h := down_inv (fun r s => r ≤ N - 3 - 4 → DInv N m n u v w b r s) (divBody (N - 3) m n u v w) (N - 3 - 4) _
    (fun _ => div_start hN m n u v w b) (fun i hi s hs _ => div_step (hs (by omega)) (by omega) hN) (by omega)
  unfold multDiv1D
  constructor
  · intro i hi
    by_cases h0 : i = 0
    · subst h0
      rw [Function.update_self, Function.update_self, h.even, if_pos (by omega)]
      rw [(entries 0).1, (entries 0).2, bp2_eq (by omega), cp1_eq (by omega), cp3_eq (by omega)]
      unfold row
      rw [if_neg (by omega), if_neg (by omega), tail_eq N u (0 + 4), ext_lt, ext_lt, ext_lt, ext_lt, ext_lt, ext_lt, ext_lt]
      · simp only [Nat.zero_add]
        push_cast
        ring
      all_goals omega
    · rw [Function.update_of_ne h0, Function.update_of_ne h0]
      exact h.vals i (by omega) hi
  · intro i hi
    rw [Function.update_of_ne (by omega), Function.update_of_ne (by omega)]
    exact h.frame i hi

/-- **C39.** Row `i` of `Mult_Div_1D` is the inner product, with the Chebyshev weight, of `u' + i m v + i n w` with the Neumann function
`i + 1`; entries from `N - 3` on are not written. (`N ≥ 7`: below that the routine reads outside its arrays.) -/
theorem C39_projection {N : ℕ} (hN : 7 ≤ N) (m n : ℝ) (u v w b : ℕ → ℂ) :
    (∀ i < N - 3, multDiv1D N m n u v w b i =
      weighted ((derivative (dirichlet N u) + (Complex.I * m) • dirichlet N v + (Complex.I * n) • dirichlet N w) * neumann (i + 1))) ∧
      ∀ i, N - 3 ≤ i → multDiv1D N m n u v w b i = b i := by
  obtain ⟨h1, h2⟩ := multDiv1D_spec hN m n u v w b
  exact ⟨fun i hi => (h1 i hi).trans (row_eq N m n u v w i (by omega)).symm, h2⟩

theorem foldl_cols {α : Type*} (F : ℕ × ℕ → (ℕ → α) → ℕ → α) (cs : List (ℕ × ℕ)) (hnd : cs.Nodup) (b : ℕ → ℕ → ℕ → α) (i j k : ℕ) :
    cs.foldl (fun b c => fun k i j => if (i, j) = c then F c (fun k => b k c.1 c.2) k else b k i j) b k i j =
      if (i, j) ∈ cs then F (i, j) (fun k => b k i j) k else b k i j := by
  induction cs generalizing b with
  | nil => simp
  | cons c cs ih =>
    rw [List.nodup_cons] at hnd
    rw [List.foldl_cons, ih hnd.2]
    by_cases hc : (i, j) = c
    · have hn : (i, j) ∉ cs := hc ▸ hnd.1
      rw [if_neg hn, if_pos hc, if_pos (by simp [hc])]
      subst hc; rfl
    · have hm : (i, j) ∈ c :: cs ↔ (i, j) ∈ cs := by simp [hc]
      simp only [hm, if_neg hc]

/-- **C39.** `Mult_Div_3D` does the same on every column, with the wavenumbers of the column. -/
theorem C39_projection_3D {N : ℕ} (hN : 7 ≤ N) (m n : ℕ → ℕ → ℝ) (n1 n2 : ℕ) (u v w b : ℕ → ℕ → ℕ → ℂ) (i j k : ℕ) (hi : i < n1) (hj : j < n2)
    (hk : k < N - 3) :
    multDiv3D N m n n1 n2 u v w b k i j =
      weighted ((derivative (dirichlet N fun k => u k i j) + (Complex.I * m i j) • dirichlet N (fun k => v k i j)
        + (Complex.I * n i j) • dirichlet N fun k => w k i j) * neumann (k + 1)) := by
  unfold multDiv3D
  have hnd : ((List.range n1).flatMap fun i => (List.range n2).map fun j => (i, j)).Nodup := by
    have : ((List.range n1).flatMap fun i => (List.range n2).map fun j => (i, j)) = (List.range n1) ×ˢ (List.range n2) := rfl
    rw [this]
    exact List.nodup_range.product List.nodup_range
  have h := foldl_cols (fun c col => multDiv1D N (m c.1 c.2) (n c.1 c.2) (fun k => u k c.1 c.2) (fun k => v k c.1 c.2) (fun k => w k c.1 c.2) col) _ hnd b i j k
  refine h.trans ?_
  rw [if_pos (by simp [hi, hj])]
  exact (C39_projection hN (m i j) (n i j) _ _ _ _).1 k hk

/-- The divergence that is projected need not vanish: for `u = 0`, `v = T_0 - T_2`, `w = 0`, `m = 1` the second row is not zero. -/
example : multDiv1D 8 1 0 0 (fun i => if i = 0 then 1 else 0) 0 0 1 ≠ 0 := by
  rw [(multDiv1D_spec (by norm_num) _ _ _ _ _ _).1 1 (by norm_num)]
  norm_num [row, ext, tail, Finset.sum_range_succ, Real.pi_ne_zero]

end SpectralDNS.LUsolve

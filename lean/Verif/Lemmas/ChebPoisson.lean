import Verif.Model.ChebPoisson
import Verif.Spec.ChebPoisson
import Verif.Lemmas.GalerkinSpace
import Verif.Lemmas.GalerkinMatrices

/-! # The stand-alone Poisson solver: transforms, derivative, matrices -/

namespace SpectralDNS.Sandbox

open Polynomial Polynomial.Chebyshev Real Finset Channel ChebWeight

theorem points_eq (N j : ℕ) : points N j = quadPoint .GC N j := by
  rw [points, quadPoint]
  congr 1
  ring_nf

theorem node_eq (N j : ℕ) : node N j = quadPoint .GC N j := rfl

theorem points_node (N j : ℕ) : points N j = node N j := by rw [points_eq, node_eq]

theorem T_node (N k j : ℕ) : (T ℝ (k : ℤ)).eval (node N j) = cos (π * k * (2 * j + 1) / (2 * N)) := by
  rw [node, T_real_cos]
  congr 1
  push_cast
  ring_nf

theorem dct2_eq (N : ℕ) (f : ℕ → ℝ) (k : ℕ) : dct2 N f k = 2 * ∑ j ∈ range N, f j * (T ℝ (k : ℤ)).eval (node N j) := by
  simp only [dct2, T_node]

theorem series_eval (N : ℕ) (hN : 1 ≤ N) (c : ℕ → ℝ) (j : ℕ) : (series N c).eval (node N j) = ifastChebTrans N c j := by
  rw [series, eval_finsetSum, ifastChebTrans, dct3, range_eq_Ico, sum_eq_sum_Ico_succ_bot (by omega)]
  simp only [eval_smul, smul_eq_mul, T_node]
  norm_num
  ring

theorem dct2_sample (N : ℕ) (p : ℝ[X]) (k : ℕ) (hN : 1 ≤ N) : dct2 N (sample N p) k * π / (2 * N) = quadrature .GC N (p * T ℝ (k : ℤ)) := by
  rw [dct2_eq, quadrature_apply]
  simp only [quadWeight, eval_mul, ← node_eq, sample]
  rw [← mul_sum]
  field_simp

theorem quad_TT_GC (N i j : ℕ) (hi : i < N) (hj : j < N) : quadrature .GC N (T ℝ (i : ℤ) * T ℝ (j : ℤ)) =
    if i = j then (if i = 0 then π else π / 2) else 0 := by
  have h := congrArg (quadrature .GC N) (T_mul_T ℝ (i : ℤ) (j : ℤ))
  rw [← wint_TT]
  have h' := congrArg wint (T_mul_T ℝ (i : ℤ) (j : ℤ))
  have e : (2 : ℝ[X]) * T ℝ (i : ℤ) * T ℝ (j : ℤ) = (2 : ℝ) • (T ℝ (i : ℤ) * T ℝ (j : ℤ)) := by
    rw [smul_eq_C_mul, map_ofNat]; ring
  have hd : ∃ m : ℕ, m < N ∧ T ℝ ((i : ℤ) - j) = T ℝ (m : ℤ) := by
    rcases le_total j i with h1 | h1
    · exact ⟨i - j, by omega, by rw [Nat.cast_sub h1]⟩
    · exact ⟨j - i, by omega, by rw [Nat.cast_sub h1, ← T_neg]; congr 1; ring⟩
  obtain ⟨m, hm, em⟩ := hd
  rw [em, map_add, e, map_smul, show (i : ℤ) + j = ((i + j : ℕ) : ℤ) by push_cast; ring, smul_eq_mul] at h h'
  rw [quad_GC_T N m (by omega) (by omega), quad_GC_T N _ (by omega) (by omega)] at h
  linarith

/-- The transform finds the coefficients of a series. -/
theorem fastChebTrans_series (N : ℕ) (c : ℕ → ℝ) (k : ℕ) (hk : k < N) : fastChebTrans N (sample N (series N c)) k = c k := by
  have hN : (N : ℝ) ≠ 0 := by exact_mod_cast (by omega : N ≠ 0)
  have hpi := pi_ne_zero
  have h := dct2_sample N (series N c) k (by omega)
  have hq : quadrature .GC N (series N c * T ℝ (k : ℤ)) = c k * (if k = 0 then π else π / 2) := by
    rw [series, sum_mul, map_sum]
    refine (sum_eq_single k (fun i hi hik => ?_) fun hk' => absurd (mem_range.2 hk) hk').trans ?_
    · rw [smul_mul_assoc, map_smul, quad_TT_GC N i k (mem_range.1 hi) hk, if_neg hik, smul_zero]
    · rw [smul_mul_assoc, map_smul, quad_TT_GC N k k hk hk, if_pos rfl, smul_eq_mul]
  rw [hq] at h
  rw [fastChebTrans]
  by_cases h0 : k = 0
  · subst h0
    rw [Function.update_self]
    rw [if_pos rfl] at h
    field_simp at h ⊢
    linarith
  · rw [Function.update_of_ne h0]
    rw [if_neg h0] at h
    field_simp at h ⊢
    linarith

theorem dct2_congr (N : ℕ) (f g : ℕ → ℝ) (h : ∀ j < N, f j = g j) : dct2 N f = dct2 N g := by
  funext k
  rw [dct2, dct2]
  congr 1
  exact sum_congr rfl fun j hj => by rw [h j (mem_range.1 hj)]

theorem fastChebTrans_congr (N : ℕ) (f g : ℕ → ℝ) (h : ∀ j < N, f j = g j) : fastChebTrans N f = fastChebTrans N g := by
  rw [fastChebTrans, fastChebTrans, dct2_congr N f g h]

theorem fast_ifast (N : ℕ) (c : ℕ → ℝ) (k : ℕ) (hk : k < N) : fastChebTrans N (ifastChebTrans N c) k = c k := by
  rw [← fastChebTrans_series N c k hk, fastChebTrans_congr N _ (sample N (series N c))]
  intro j _
  rw [sample, series_eval N (by omega)]

theorem node_inj (N : ℕ) (hN : 1 ≤ N) : Set.InjOn (node N) (range N : Finset ℕ) := by
  rcases hN.eq_or_lt with rfl | h
  · intro i hi j hj _
    have := mem_range.1 (mem_coe.1 hi)
    have := mem_range.1 (mem_coe.1 hj)
    omega
  · exact quadPoint_inj .GC N h

/-- Any values at the points are those of a polynomial. -/
theorem exists_sample (N : ℕ) (hN : 1 ≤ N) (f : ℕ → ℝ) : ∃ p : ℝ[X], p.degree < (N : ℕ) ∧ ∀ j < N, sample N p j = f j := by
  refine ⟨Lagrange.interpolate (range N) (node N) f, ?_, fun j hj => ?_⟩
  · have := Lagrange.degree_interpolate_lt f (node_inj N hN)
    rwa [card_range] at this
  · exact Lagrange.eval_interpolate_at_node f (node_inj N hN) (mem_range.2 hj)

theorem exists_series (N : ℕ) (p : ℝ[X]) (hp : p.degree < (N : ℕ)) : ∃ c, p = series N c := Utilities.exists_chebyshev N p hp

theorem series_congr (N : ℕ) (c d : ℕ → ℝ) (h : ∀ k < N, c k = d k) : series N c = series N d :=
  sum_congr rfl fun k hk => by rw [h k (mem_range.1 hk)]

theorem series_fast (N : ℕ) (p : ℝ[X]) (hp : p.degree < (N : ℕ)) : series N (fastChebTrans N (sample N p)) = p := by
  obtain ⟨c, rfl⟩ := exists_series N p hp
  exact series_congr N _ _ fun k hk => fastChebTrans_series N c k hk

theorem ifast_fast (N : ℕ) (f : ℕ → ℝ) (j : ℕ) (hj : j < N) : ifastChebTrans N (fastChebTrans N f) j = f j := by
  obtain ⟨p, hp, hf⟩ := exists_sample N (by omega) f
  rw [← fastChebTrans_congr N _ f hf, ← series_eval N (by omega), series_fast N p hp]
  exact hf j hj

/-! ## The derivative -/

/-- The relation between the coefficients of a series and those of its derivative, added up. -/
theorem derivative_sum (f g : ℕ → ℝ) (hg : ∀ k, 1 ≤ k → g k = 2 * ((k : ℝ) + 1) * f (k + 1) + g (k + 2)) (i : ℕ) :
    ∑ k ∈ range i, g (k + 1) • ((2 : ℝ) • T ℝ ((k + 1 : ℕ) : ℤ)) =
      ∑ k ∈ range i, (2 * ((k : ℝ) + 2) * f (k + 2)) • U ℝ ((k + 1 : ℕ) : ℤ) - g 2 • U ℝ 0 + g (i + 1) • U ℝ ((i : ℤ) - 1) + g (i + 2) • U ℝ (i : ℤ) := by
  induction i with
  | zero => simp
  | succ i ih =>
    rw [sum_range_succ, sum_range_succ, ih, hg (i + 1) (by omega)]
    have h := two_mul_T_eq_U_sub_U ℝ ((i : ℤ) - 1)
    have h2 : (2 : ℝ) • T ℝ ((i + 1 : ℕ) : ℤ) = U ℝ ((i : ℤ) + 1) - U ℝ ((i : ℤ) - 1) := by
      rw [smul_eq_C_mul, map_ofNat]
      rw [show (i : ℤ) - 1 + 2 = ((i + 1 : ℕ) : ℤ) by push_cast; ring] at h
      push_cast at h ⊢
      linear_combination h
    rw [h2]
    push_cast
    rw [show (i : ℤ) + 1 - 1 = i by ring]
    module

theorem derivative_series (M : ℕ) (hM : 2 ≤ M) (f g : ℕ → ℝ) (h0 : g 0 = f 1 + g 2 / 2)
    (hg : ∀ k, 1 ≤ k → k + 2 ≤ M → g k = 2 * ((k : ℝ) + 1) * f (k + 1) + g (k + 2)) (h1 : g (M - 1) = 2 * (M : ℝ) * f M) (h2 : g M = 0) :
    derivative (series (M + 1) f) = series (M + 1) g := by
  have key : ∀ f' g' : ℕ → ℝ, (∀ k ≤ M, f' k = f k) → (∀ k, M < k → f' k = 0) → (∀ k ≤ M, g' k = g k) → (∀ k, M < k → g' k = 0) →
      derivative (series (M + 1) f') = series (M + 1) g' := by
    intro f' g' hf' hf0 hg' hg0
    have hrec : ∀ k, 1 ≤ k → g' k = 2 * ((k : ℝ) + 1) * f' (k + 1) + g' (k + 2) := by
      intro k hk
      rcases lt_trichotomy (k + 1) M with h | h | h
      · rw [hg' k (by omega), hf' _ (by omega), hg' _ (by omega), hg k hk (by omega)]
      · rw [hg' k (by omega), hf' _ (by omega), hg0 (k + 2) (by omega), show k = M - 1 by omega, h1, show M - 1 + 1 = M by omega,
          Nat.cast_sub (by omega)]
        push_cast; ring
      · rw [hf0 _ (by omega), hg0 (k + 2) (by omega)]
        rcases (show k = M ∨ M < k by omega) with rfl | h'
        · rw [hg' _ le_rfl, h2]; ring
        · rw [hg0 k h']; ring
    have hs := derivative_sum f' g' hrec M
    rw [hg0 (M + 1) (by omega), hg0 (M + 2) (by omega), zero_smul, zero_smul, add_zero, add_zero] at hs
    have hM1 : ∑ k ∈ range M, (2 * ((k : ℝ) + 2) * f' (k + 2)) • U ℝ ((k + 1 : ℕ) : ℤ) =
        ∑ k ∈ range M, (2 * ((k : ℝ) + 1) * f' (k + 1)) • U ℝ (k : ℤ) - (2 * f' 1) • U ℝ 0 := by
      have e1 := sum_range_succ (fun k : ℕ => (2 * ((k : ℝ) + 1) * f' (k + 1)) • U ℝ (k : ℤ)) M
      have e2 := sum_range_succ' (fun k : ℕ => (2 * ((k : ℝ) + 1) * f' (k + 1)) • U ℝ (k : ℤ)) M
      rw [hf0 (M + 1) (by omega), mul_zero, zero_smul, add_zero] at e1
      rw [← e1, e2]
      have : ∀ k : ℕ, (2 * (((k + 1 : ℕ) : ℝ) + 1) * f' (k + 1 + 1)) • U ℝ ((k + 1 : ℕ) : ℤ) =
          (2 * ((k : ℝ) + 2) * f' (k + 2)) • U ℝ ((k + 1 : ℕ) : ℤ) := fun k => by
        congr 2
        push_cast; ring
      simp only [this]
      simp
    have hd : derivative (series (M + 1) f') = ∑ k ∈ range M, (((k : ℝ) + 1) * f' (k + 1)) • U ℝ (k : ℤ) := by
      rw [series, sum_range_succ', derivative_add, Polynomial.derivative_sum]
      rw [show derivative (f' 0 • T ℝ ((0 : ℕ) : ℤ)) = 0 by simp, add_zero]
      refine sum_congr rfl fun k _ => ?_
      rw [derivative_smul, T_derivative_eq_U, show ((k + 1 : ℕ) : ℤ) - 1 = k by push_cast; ring]
      simp only [smul_eq_C_mul, map_mul, map_add, map_natCast, map_one]
      push_cast; ring
    rw [hd, series, sum_range_succ']
    rw [hM1] at hs
    have h0' : g' 0 = f' 1 + g' 2 / 2 := by rw [hg' 0 (by omega), hf' 1 (by omega), hg' 2 hM, h0]
    rw [h0', Nat.cast_zero, T_zero]
    rw [U_zero] at hs
    have l1 : ∑ k ∈ range M, g' (k + 1) • ((2 : ℝ) • T ℝ ((k + 1 : ℕ) : ℤ)) = (2 : ℝ) • ∑ k ∈ range M, g' (k + 1) • T ℝ ((k + 1 : ℕ) : ℤ) := by
      rw [smul_sum]; exact sum_congr rfl fun k _ => smul_comm _ _ _
    have l2 : ∑ k ∈ range M, (2 * ((k : ℝ) + 1) * f' (k + 1)) • U ℝ (k : ℤ) = (2 : ℝ) • ∑ k ∈ range M, (((k : ℝ) + 1) * f' (k + 1)) • U ℝ (k : ℤ) := by
      rw [smul_sum]; exact sum_congr rfl fun k _ => by rw [smul_smul, mul_assoc]
    rw [l1, l2] at hs
    linear_combination (norm := module) (-1 / 2 : ℝ) • hs
  have := key (fun k => if k ≤ M then f k else 0) (fun k => if k ≤ M then g k else 0) (fun k hk => if_pos hk) (fun k hk => if_neg (by omega))
    (fun k hk => if_pos hk) fun k hk => if_neg (by omega)
  rwa [series_congr (M + 1) _ f fun k hk => if_pos (by omega), series_congr (M + 1) _ g fun k hk => if_pos (by omega)] at this

/-- What the loop, run down to index `i + 1`, has computed. -/
theorem derivLoop (f g : ℕ → ℝ) (n i : ℕ) : ∀ k,
    ((k < i ∨ i + n ≤ k) → (List.range' i n).reverse.foldl (derivStep f) g k = g k) ∧
    (i ≤ k → k < i + n → (List.range' i n).reverse.foldl (derivStep f) g k =
      2 * ((k : ℝ) + 1) * f (k + 1) + (List.range' i n).reverse.foldl (derivStep f) g (k + 2)) := by
  induction n generalizing i with
  | zero =>
    intro k
    exact ⟨fun _ => rfl, fun h1 h2 => by omega⟩
  | succ n ih =>
    intro k
    rw [List.range'_succ, List.reverse_cons, List.foldl_append]
    simp only [List.foldl_cons, List.foldl_nil]
    have h := ih (i + 1)
    rw [derivStep]
    refine ⟨fun hk => ?_, fun h1 h2 => ?_⟩
    · rw [Function.update_of_ne (by omega)]
      exact (h k).1 (by omega)
    · rcases h1.eq_or_lt with rfl | h1
      · rw [Function.update_self, Function.update_of_ne (by omega)]
      · rw [Function.update_of_ne (by omega), Function.update_of_ne (by omega)]
        exact (h k).2 (by omega) (by omega)

theorem derivative_coefficients (len : ℕ) (hlen : 3 ≤ len) (f : ℕ → ℝ) :
    derivative (series len f) = series len (chebDerivativeCoefficients len f) := by
  obtain ⟨M, rfl⟩ : ∃ M, len = M + 1 := ⟨len - 1, by omega⟩
  have hM : 2 ≤ M := by omega
  set g0 := Function.update (Function.update f (M + 1 - 1) 0) (M + 1 - 2) (2 * ((M + 1 - 1 : ℕ) : ℝ) * f (M + 1 - 1)) with hg0
  have hL := derivLoop f g0 (M - 2) 1
  have e : ∀ k, k ≠ 0 → chebDerivativeCoefficients (M + 1) f k = (List.range' 1 (M - 2)).reverse.foldl (derivStep f) g0 k := fun k hk => by
    rw [chebDerivativeCoefficients]
    exact Function.update_of_ne hk _ _
  refine derivative_series M hM f _ ?_ ?_ ?_ ?_
  · rw [e 2 (by omega)]
    simp only [chebDerivativeCoefficients, Function.update_self, Nat.add_sub_cancel]
    rw [hg0]
    simp only [Nat.add_sub_cancel]
    norm_num
    ring
  · intro k hk hk2
    rw [e k (by omega), e (k + 2) (by omega)]
    exact (hL k).2 hk (by omega)
  · rw [e _ (by omega), (hL _).1 (by omega), hg0, show M + 1 - 2 = M - 1 by omega, Function.update_self, Nat.add_sub_cancel]
  · rw [e _ (by omega), (hL _).1 (by omega), hg0, Function.update_of_ne (by omega), Nat.add_sub_cancel, Function.update_self]

/-! ## The basis of functions vanishing at both ends -/

/-- The function with coefficients `c`. -/
noncomputable def shen (N : ℕ) (c : ℕ → ℝ) : ℝ[X] := ∑ k ∈ range (N - 2), c k • phi k

theorem shen_expand (n : ℕ) (c : ℕ → ℝ) : shen (n + 2) c = expand phi (fun k : Fin n => c k) := by
  rw [shen, expand, Nat.add_sub_cancel, sum_range]

theorem V_eq (N k j : ℕ) : V N k j = (phi k).eval (node N j) := by rw [V, points_node, phi, eval_sub]

theorem scalar_eq (b : Bool) (N : ℕ) (f : ℕ → ℝ) (k : ℕ) :
    fastShenScalar b N f k = π / N * ∑ j ∈ range N, f j * (phi k).eval (node N j) := by
  cases b
  · simp only [fastShenScalar, Bool.false_eq_true, if_false, weights]
    rw [mul_sum]
    exact sum_congr rfl fun j _ => by rw [V_eq]; ring
  · simp only [fastShenScalar, if_true, fastChebScalar, dct2_eq, phi, eval_sub, mul_sub, sum_sub_distrib]
    ring

theorem scalar_sample (b : Bool) (N : ℕ) (p : ℝ[X]) (k : ℕ) : fastShenScalar b N (sample N p) k = quadrature .GC N (p * phi k) := by
  rw [scalar_eq, quadrature_apply, mul_sum]
  exact sum_congr rfl fun j _ => by rw [eval_mul, quadWeight, sample, node_eq]

theorem scalar_congr (b : Bool) (N : ℕ) (f g : ℕ → ℝ) (h : ∀ j < N, f j = g j) : fastShenScalar b N f = fastShenScalar b N g := by
  funext k
  rw [scalar_eq, scalar_eq]
  congr 1
  exact sum_congr rfl fun j hj => by rw [h j (mem_range.1 hj)]

theorem wHat_eq (n : ℕ) (c : ℕ → ℝ) (k : ℕ) (hk : k < n + 4) :
    wHat (n + 4) c k = (if k < n + 2 then c k else 0) - (if k < 2 then 0 else c (k - 2)) := by
  rw [wHat]
  simp only [show n + 4 - 2 = n + 2 from rfl, show n + 4 - 1 = n + 3 from rfl, show n + 4 - 4 = n from rfl, show n + 4 - 3 = n + 1 from rfl]
  rcases (show k < n + 2 ∨ k = n + 2 ∨ k = n + 3 by omega) with h | rfl | rfl
  · rw [Function.update_of_ne (by omega), Function.update_of_ne (by omega), if_pos h, if_pos h]
  · rw [Function.update_of_ne (by omega), Function.update_self]
    simp
  · rw [Function.update_self, Function.update_of_ne (by omega)]
    simp

theorem series_wHat (n : ℕ) (c : ℕ → ℝ) : series (n + 4) (wHat (n + 4) c) = shen (n + 4) c := by
  rw [series, sum_congr rfl fun k hk => by rw [wHat_eq n c k (mem_range.1 hk), sub_smul], sum_sub_distrib, shen]
  simp only [show n + 4 - 2 = n + 2 from rfl, phi, smul_sub, sum_sub_distrib]
  congr 1
  · rw [sum_range_succ, sum_range_succ, if_neg (by omega), if_neg (by omega), zero_smul, add_zero, zero_smul, add_zero]
    exact sum_congr rfl fun k hk => by rw [if_pos (mem_range.1 hk)]
  · rw [sum_range_succ' _ (n + 3), sum_range_succ' _ (n + 2), if_pos (by omega), if_pos (by omega), zero_smul, add_zero, zero_smul, add_zero]
    exact sum_congr rfl fun k _ => by rw [if_neg (by omega)]; rfl

theorem ifastShen_eq (b : Bool) (n : ℕ) (c : ℕ → ℝ) (j : ℕ) : ifastShenTrans b (n + 4) c j = sample (n + 4) (shen (n + 4) c) j := by
  cases b
  · simp only [ifastShenTrans, Bool.false_eq_true, if_false, sample, shen, eval_finsetSum, eval_smul, smul_eq_mul, V_eq]
    exact sum_congr rfl fun k _ => mul_comm _ _
  · simp only [ifastShenTrans, if_true]
    rw [← series_eval _ (by omega), series_wHat, sample]

/-! ## The matrices -/

theorem linsolve_spec (m : ℕ) (A : ℕ → ℕ → ℝ) (d : ℕ → ℝ) (hA : (Matrix.of fun i j : Fin m => A i j).det ≠ 0) (x : ℕ → ℝ) :
    (∀ i < m, ∑ j ∈ range m, A i j * x j = d i) ↔ ∀ k < m, linsolve m A d k = x k := by
  have hu : IsUnit (Matrix.of fun i j : Fin m => A i j).det := isUnit_iff_ne_zero.2 hA
  have h1 : (∀ i < m, ∑ j ∈ range m, A i j * x j = d i) ↔
      (Matrix.of fun i j : Fin m => A i j).mulVec (fun j => x j) = fun i : Fin m => d i := by
    rw [funext_iff]
    simp only [Matrix.mulVec, dotProduct, Matrix.of_apply]
    refine ⟨fun h i => ?_, fun h i hi => ?_⟩
    · rw [← h i i.2, sum_range]
    · rw [← h ⟨i, hi⟩, sum_range]
  have h2 : (∀ k < m, linsolve m A d k = x k) ↔ (Matrix.of fun i j : Fin m => A i j)⁻¹.mulVec (fun i => d i) = fun j : Fin m => x j := by
    rw [funext_iff]
    refine ⟨fun h j => ?_, fun h k hk => ?_⟩
    · rw [← h j j.2, linsolve, dif_pos j.2]
    · rw [linsolve, dif_pos hk, h]
  rw [h1, h2]
  constructor
  · intro h
    rw [← h, Matrix.mulVec_mulVec, Matrix.nonsing_inv_mul _ hu, Matrix.one_mulVec]
  · intro h
    rw [← h, Matrix.mulVec_mulVec, Matrix.mul_nonsing_inv _ hu, Matrix.one_mulVec]

/-- The entries of the stiffness matrix. -/
noncomputable def stiff (i j : ℕ) : ℝ := if i = j then -2 * π * (i + 1) * (i + 2) else if i < j ∧ (j - i) % 2 = 0 then -4 * π * (i + 1) else 0

theorem bandLoop (N : ℕ) (L : List ℕ) (hL : ∀ i ∈ L, i ≤ N - 3) (hN : 3 ≤ N) (A : ℕ → ℕ → ℝ) (r j : ℕ) : L.foldl (bandStep N) A r j =
    if ∃ i ∈ L, r = N - 2 - i - 1 ∧ i ≤ j then -4 * π * (((j - (N - 3 - r) : ℕ) : ℝ) + 1) else A r j := by
  induction L generalizing A with
  | nil => simp
  | cons a L ih =>
    rw [List.foldl_cons, ih fun i hi => hL i (List.mem_cons_of_mem _ hi)]
    have ha := hL a List.mem_cons_self
    by_cases h : ∃ i ∈ L, r = N - 2 - i - 1 ∧ i ≤ j
    · rw [if_pos h, if_pos]
      obtain ⟨i, hi, h⟩ := h
      exact ⟨i, List.mem_cons_of_mem _ hi, h⟩
    · rw [if_neg h, bandStep]
      by_cases h2 : r = N - 2 - a - 1 ∧ a ≤ j
      · rw [if_pos h2, if_pos ⟨a, List.mem_cons_self, h2⟩, show N - 3 - r = a by omega]
      · rw [if_neg h2, if_neg]
        rintro ⟨i, hi, hr⟩
        rcases List.mem_cons.1 hi with rfl | hi
        · exact h2 hr
        · exact h ⟨i, hi, hr⟩

theorem mem_evens (N d : ℕ) (hd : d ≤ N - 3) : d ∈ List.range' 2 ((N - 3) / 2) 2 ↔ 2 ≤ d ∧ d % 2 = 0 := by
  rw [List.mem_range']
  constructor
  · rintro ⟨i, hi, rfl⟩; omega
  · rintro ⟨h1, h2⟩; exact ⟨(d - 2) / 2, by omega, by omega⟩

theorem evens_le (N d : ℕ) (h : d ∈ List.range' 2 ((N - 3) / 2) 2) : d ≤ N - 3 := by
  rw [List.mem_range'] at h
  obtain ⟨i, hi, rfl⟩ := h
  omega

theorem band_stiff (N : ℕ) (hN : 3 ≤ N) (i j : ℕ) (hj : j < N - 2) : bandMatrix (N - 3) (bandStorage N) i j = stiff i j := by
  rw [bandMatrix]
  by_cases h : i ≤ j
  · rw [if_pos ⟨h, by omega⟩, bandStorage, bandLoop N _ (evens_le N) hN, stiff]
    by_cases hd : i = j
    · subst hd
      rw [if_neg, if_pos (by omega), if_pos rfl]
      rintro ⟨l, hl, h1, -⟩
      have := evens_le N l hl
      have := (mem_evens N l this).1 hl
      omega
    · rw [if_neg hd]
      by_cases h2 : i < j ∧ (j - i) % 2 = 0
      · rw [if_pos ⟨j - i, (mem_evens N _ (by omega)).2 (by omega), by omega, by omega⟩, if_pos h2, show j - (N - 3 - (N - 3 + i - j)) = i by omega]
      · rw [if_neg, if_neg (by omega), if_neg h2]
        rintro ⟨l, hl, h1, -⟩
        have h3 := evens_le N l hl
        have := (mem_evens N l h3).1 hl
        omega
  · rw [if_neg (by omega), stiff, if_neg (by omega), if_neg (by omega)]

theorem diagLoop (g : ℕ → ℝ) (L : List ℕ) (A : ℕ → ℕ → ℝ) (i j : ℕ) :
    (L.map fun x => (g, x)).foldl (fun A (d : (ℕ → ℝ) × ℕ) i j => if j = i + d.2 then d.1 i else A i j) A i j =
      if ∃ x ∈ L, j = i + x then g i else A i j := by
  induction L generalizing A with
  | nil => simp
  | cons a L ih =>
    rw [List.map_cons, List.foldl_cons, ih]
    by_cases h : ∃ x ∈ L, j = i + x
    · rw [if_pos h, if_pos]
      obtain ⟨x, hx, h⟩ := h
      exact ⟨x, List.mem_cons_of_mem _ hx, h⟩
    · rw [if_neg h]
      by_cases h2 : j = i + a
      · rw [if_pos h2, if_pos ⟨a, List.mem_cons_self, h2⟩]
      · rw [if_neg h2, if_neg]
        rintro ⟨x, hx, hr⟩
        rcases List.mem_cons.1 hx with rfl | hx
        · exact h2 hr
        · exact h ⟨x, hx, hr⟩

theorem sparse_stiff (N : ℕ) (hN : 3 ≤ N) (i j : ℕ) (hj : j < N - 2) : sparseMatrix N i j = stiff i j := by
  have hz : ∀ (g : ℕ → ℝ) (L : List ℕ), (L.map fun _ => g).zip L = L.map fun x => (g, x) := fun g L => by
    induction L with
    | nil => rfl
    | cons a L ih => rw [List.map_cons, List.zip_cons_cons, ih, List.map_cons]
  have he : (N - 1) / 2 = (N - 3) / 2 + 1 := by omega
  rw [sparseMatrix]
  simp only [he, List.range'_succ, List.cons_append, List.nil_append, List.zip_cons_cons, diags, List.foldl_cons, hz, zero_add]
  rw [diagLoop, stiff]
  by_cases hd : i = j
  · subst hd
    rw [if_neg, if_pos (by omega), if_pos rfl]
    rintro ⟨l, hl, h1⟩
    have h3 := evens_le N l hl
    have := (mem_evens N l h3).1 hl
    omega
  · rw [if_neg hd]
    by_cases h2 : i < j ∧ (j - i) % 2 = 0
    · rw [if_pos ⟨j - i, (mem_evens N _ (by omega)).2 (by omega), by omega⟩, if_pos h2]
    · rw [if_neg, if_neg (by omega), if_neg h2]
      rintro ⟨l, hl, h1⟩
      have h3 := evens_le N l hl
      have := (mem_evens N l h3).1 hl
      omega

theorem linsolve_congr (m : ℕ) (A B : ℕ → ℕ → ℝ) (d : ℕ → ℝ) (h : ∀ i < m, ∀ j < m, A i j = B i j) : linsolve m A d = linsolve m B d := by
  have : (Matrix.of fun i j : Fin m => A i j) = Matrix.of fun i j : Fin m => B i j := by
    ext i j
    exact h i i.2 j j.2
  funext k
  rw [linsolve, linsolve, this]

theorem solve_eq (N : ℕ) (hN : 3 ≤ N) (f : ℕ → ℝ) (banded : Bool) : solve N f banded = linsolve (N - 2) stiff f := by
  cases banded
  · simp only [solve, Bool.false_eq_true, if_false]
    exact linsolve_congr _ _ _ _ fun i _ j hj => sparse_stiff N hN i j hj
  · simp only [solve, if_true]
    exact linsolve_congr _ _ _ _ fun i _ j hj => band_stiff N hN i j hj

theorem stiff_entry (n : ℕ) : (Matrix.of fun i j : Fin (n + 2) => stiff i j) = entry .GC (n + 4) phi phi 2 (n + 2) (n + 2) := by
  have h := entry_stiff .GC n
  ext i j
  have h2 := congrFun (congrFun h i) j
  rw [Matrix.map_apply, stiffMatrix] at h2
  rw [Matrix.of_apply, stiff]
  simp only [Fin.ext_iff, Fin.lt_def] at h2
  apply Complex.ofReal_injective
  rw [h2]
  split_ifs <;> push_cast <;> rfl

theorem massTri (n : ℕ) : (Matrix.of fun i j : Fin (n + 2) => triMatrix (fun _ => 1 * (-π / 2))
    (fun k => π / 2 * (Function.update (fun _ => (1 : ℝ)) 0 2 k + 1)) (fun _ => 1 * (-π / 2)) i j) = entry .GC (n + 4) phi phi 0 (n + 2) (n + 2) := by
  have h := entry_mass .GC n
  ext i j
  have h2 := congrFun (congrFun h i) j
  rw [Matrix.map_apply, massMatrix] at h2
  apply Complex.ofReal_injective
  rw [h2, Matrix.of_apply, triMatrix]
  have hc : ∀ k, ck (decide (Quad.GC = Quad.GL)) (n + 4) k = Function.update (fun _ => (1 : ℝ)) 0 2 k := fun k => by
    by_cases h0 : k = 0
    · subst h0; simp [ck]
    · simp [ck, h0]
  have hc2 : ck (decide (Quad.GC = Quad.GL)) (n + 4) ((i : ℕ) + 2) = 1 := by rw [hc]; simp
  rw [hc2, hc]
  simp only [Fin.ext_iff]
  by_cases h1 : (i : ℕ) = j
  · rw [if_pos h1, if_pos h1]
  · rw [if_neg h1, if_neg h1]
    by_cases h2 : (i : ℕ) = j + 2
    · rw [if_pos h2, if_pos (Or.inr h2)]; push_cast; ring
    · rw [if_neg h2]
      by_cases h3 : (j : ℕ) = i + 2
      · rw [if_pos h3, if_pos (Or.inl h3)]; push_cast; ring
      · rw [if_neg h3, if_neg (by tauto)]; simp

theorem det_ne_zero {m : ℕ} (A : Matrix (Fin m) (Fin m) ℝ) (h : ∀ x, x ≠ 0 → x ⬝ᵥ A.mulVec x ≠ 0) : A.det ≠ 0 := by
  intro h0
  obtain ⟨x, hx, hx0⟩ := Matrix.exists_mulVec_eq_zero_iff.2 h0
  exact h x hx (by rw [hx0, dotProduct_zero])

theorem stiff_det (n : ℕ) : (Matrix.of fun i j : Fin (n + 2) => stiff i j).det ≠ 0 := by
  rw [stiff_entry]
  exact det_ne_zero _ fun x hx => (second_neg .GC (n + 4) (n + 2) phi 2 (by omega) (by omega) degree_phi expand_phi x hx).ne

theorem mass_det (n : ℕ) : (Matrix.of fun i j : Fin (n + 2) => triMatrix (fun _ => 1 * (-π / 2))
    (fun k => π / 2 * (Function.update (fun _ => (1 : ℝ)) 0 2 k + 1)) (fun _ => 1 * (-π / 2)) i j).det ≠ 0 := by
  rw [massTri]
  exact det_ne_zero _ fun x hx => (mass_pos .GC (n + 4) (n + 2) phi 2 (by omega) (by omega) degree_phi x hx).ne'

/-- A matrix of inner products applied to coefficients. -/
theorem entry_sum (n d : ℕ) (A : ℕ → ℕ → ℝ) (hA : (Matrix.of fun i j : Fin (n + 2) => A i j) = entry .GC (n + 4) phi phi d (n + 2) (n + 2))
    (c : ℕ → ℝ) (i : ℕ) (hi : i < n + 2) :
    ∑ j ∈ range (n + 2), A i j * c j = quadrature .GC (n + 4) (derivative^[d] (shen (n + 4) c) * phi i) := by
  have h : ∀ j : Fin (n + 2), A i j = quadrature .GC (n + 4) (derivative^[d] (phi j) * phi i) := fun j => congrFun (congrFun hA ⟨i, hi⟩) j
  rw [sum_range, shen, show n + 4 - 2 = n + 2 from rfl, iterate_derivative_sum, sum_mul, map_sum, sum_range]
  refine sum_congr rfl fun j _ => ?_
  rw [h, iterate_derivative_smul, smul_mul_assoc, map_smul, smul_eq_mul, mul_comm]

/-- `fastShenTrans` finds the function with the given inner products. -/
theorem shenTrans_spec (b : Bool) (n : ℕ) (f c : ℕ → ℝ) :
    (∀ k < n + 2, fastShenTrans b (n + 4) f k = c k) ↔
      ∀ i < n + 2, quadrature .GC (n + 4) (shen (n + 4) c * phi i) = fastShenScalar b (n + 4) f i := by
  have h := linsolve_spec (n + 2) _ (fastShenScalar b (n + 4) f) (mass_det n) c
  refine h.symm.trans (forall₂_congr fun i hi => ?_)
  rw [entry_sum n 0 _ (massTri n) c i hi]
  rfl

theorem solve_spec (banded : Bool) (n : ℕ) (d c : ℕ → ℝ) :
    (∀ k < n + 2, solve (n + 4) d banded k = c k) ↔
      ∀ i < n + 2, quadrature .GC (n + 4) (derivative^[2] (shen (n + 4) c) * phi i) = d i := by
  rw [solve_eq _ (by omega)]
  have h := linsolve_spec (n + 2) _ d (stiff_det n) c
  refine h.symm.trans (forall₂_congr fun i hi => ?_)
  rw [entry_sum n 2 _ (stiff_entry n) c i hi]

theorem exists_shen (n : ℕ) (p : ℝ[X]) (hp : Dirichlet (n + 4) p) : ∃ c, p = shen (n + 4) c := by
  obtain ⟨x, rfl⟩ := exists_phi (n + 2) p hp.1 hp.2.1 hp.2.2
  refine ⟨fun k => if h : k < n + 2 then x ⟨k, h⟩ else 0, ?_⟩
  rw [shen_expand (n + 2)]
  congr 1
  funext k
  simp

theorem shen_dirichlet (n : ℕ) (c : ℕ → ℝ) : Dirichlet (n + 4) (shen (n + 4) c) := by
  obtain ⟨r, hr⟩ := expand_phi (fun k : Fin (n + 2) => c k)
  rw [shen_expand (n + 2)]
  refine ⟨degree_expand phi 2 degree_phi _, ?_, ?_⟩ <;> rw [hr] <;> simp

theorem phi_dirichlet (n k : ℕ) (hk : k < n + 2) : Dirichlet (n + 4) (phi k) := by
  obtain ⟨h1, h2⟩ := phi_walls k
  refine ⟨?_, h1, h2⟩
  rw [degree_phi]
  exact_mod_cast (by omega : k + 2 < n + 4)

/-- Testing with the basis is testing with everything. -/
theorem orthogonal_iff (b : Bool) (n : ℕ) (p : ℝ[X]) (f : ℕ → ℝ) : (Orthogonal (n + 4) fun j => sample (n + 4) p j - f j) ↔
    ∀ i < n + 2, quadrature .GC (n + 4) (p * phi i) = fastShenScalar b (n + 4) f i := by
  have e : ∀ i, ∑ j ∈ range (n + 4), (sample (n + 4) p j - f j) * sample (n + 4) (phi i) j = 0 ↔
      quadrature .GC (n + 4) (p * phi i) = fastShenScalar b (n + 4) f i := fun i => by
    rw [← scalar_sample b, scalar_eq, scalar_eq, mul_right_inj' (by positivity), ← sub_eq_zero (b := ∑ j ∈ _, f j * _), ← sum_sub_distrib]
    simp only [sub_mul, sample]
  constructor
  · intro h i hi
    exact (e i).1 (h _ (phi_dirichlet n i hi))
  · intro h v hv
    obtain ⟨c, rfl⟩ := exists_shen n v hv
    simp only [sample, shen, eval_finsetSum, mul_sum, eval_smul, smul_eq_mul]
    rw [sum_comm]
    refine sum_eq_zero fun i hi => ?_
    have := (e i).2 (h i (mem_range.1 hi))
    calc _ = c i * ∑ j ∈ range (n + 4), (sample (n + 4) p j - f j) * sample (n + 4) (phi i) j := by
          rw [mul_sum]; exact sum_congr rfl fun j _ => by simp only [sample]; ring
      _ = 0 := by rw [this, mul_zero]

/-- Every polynomial is a second derivative of one vanishing at both ends. -/
theorem exists_second (n : ℕ) (f : ℝ[X]) (hf : f.degree < (n + 2 : ℕ)) : ∃ u, Dirichlet (n + 4) u ∧ derivative^[2] u = f := by
  have hint : ∀ (m : ℕ) (g : ℝ[X]), g.degree < (m : ℕ) → ∃ w : ℝ[X], w.degree < (m + 1 : ℕ) ∧ derivative w = g := fun m g hg => by
    refine ⟨∑ i ∈ range m, Polynomial.monomial (i + 1) (g.coeff i / (i + 1)), ?_, ?_⟩
    · refine lt_of_le_of_lt (degree_sum_le _ _) ?_
      rw [Finset.sup_lt_iff (by exact_mod_cast WithBot.bot_lt_coe _)]
      intro i hi
      refine lt_of_le_of_lt (degree_monomial_le _ _) ?_
      exact_mod_cast (by have := mem_range.1 hi; omega : i + 1 < m + 1)
    · rw [Polynomial.derivative_sum]
      ext k
      rw [finsetSum_coeff]
      simp only [derivative_monomial, coeff_monomial, Nat.add_sub_cancel]
      rw [sum_ite_eq' (range m) k]
      split_ifs with h
      · have : (k : ℝ) + 1 ≠ 0 := by positivity
        push_cast
        field_simp
      · exact (coeff_eq_zero_of_degree_lt (lt_of_lt_of_le hg (by exact_mod_cast (by simpa using h)))).symm
  obtain ⟨g, hg, hg'⟩ := hint _ f hf
  obtain ⟨w, hw, hw'⟩ := hint _ g hg
  set a := (w.eval 1 - w.eval (-1)) / 2
  set b := (w.eval 1 + w.eval (-1)) / 2
  refine ⟨w - (Polynomial.C a * X + Polynomial.C b), ⟨?_, ?_, ?_⟩, ?_⟩
  · refine lt_of_le_of_lt (degree_sub_le _ _) (max_lt hw (lt_of_le_of_lt degree_linear_le ?_))
    exact_mod_cast (by omega : 1 < n + 4)
  · simp [a, b]; ring
  · simp [a, b]; ring
  · simp [hw', hg']

theorem shen_congr (n : ℕ) (c d : ℕ → ℝ) (h : ∀ k < n + 2, c k = d k) : shen (n + 4) c = shen (n + 4) d :=
  sum_congr rfl fun k hk => by rw [h k (mem_range.1 hk)]

end SpectralDNS.Sandbox

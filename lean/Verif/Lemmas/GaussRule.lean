import Verif.Lemmas.Legendre
import Verif.Spec.LegPoisson
import Mathlib.Analysis.Complex.Polynomial.Basic
import Mathlib.LinearAlgebra.Lagrange

/-!
# Gauss-Legendre quadrature exists for every number of points

The points are the zeros of the Legendre polynomial of degree `n + 1`.
-/

namespace SpectralDNS.Leg

open Polynomial Finset Sandbox

/-- Integration over `[-1, 1]`. -/
noncomputable def integ (p : ℝ[X]) : ℝ := ∫ x in (-1 : ℝ)..1, p.eval x

theorem integ_add (p q : ℝ[X]) : integ (p + q) = integ p + integ q := by
  simp only [integ, eval_add]
  exact intervalIntegral.integral_add ((Polynomial.continuous p).intervalIntegrable _ _) ((Polynomial.continuous q).intervalIntegrable _ _)

theorem integ_C_mul (a : ℝ) (p : ℝ[X]) : integ (C a * p) = a * integ p := by
  simp only [integ, eval_mul, eval_C, intervalIntegral.integral_const_mul]

theorem integ_sum {ι : Type*} (s : Finset ι) (f : ι → ℝ[X]) : integ (∑ i ∈ s, f i) = ∑ i ∈ s, integ (f i) := by
  induction s using Finset.cons_induction with
  | empty => simp [integ]
  | cons i s hi ih => rw [sum_cons, sum_cons, integ_add, ih]

theorem integ_pos {p : ℝ[X]} (hp : p ≠ 0) (h : ∀ x, -1 < x → x < 1 → 0 ≤ p.eval x) : 0 < integ p := by
  obtain ⟨c, hc, h0⟩ : ∃ c ∈ Set.Ioo (-1 : ℝ) 1, p.eval c ≠ 0 := by
    by_contra hcon
    push Not at hcon
    have hfin : (Set.Ioo (-1 : ℝ) 1).Finite := (p.roots.toFinset.finite_toSet).subset fun x hx => by
      simp [hp, hcon x hx]
    exact (Set.Ioo_infinite (by norm_num : (-1 : ℝ) < 1)) hfin
  have hcont := Polynomial.continuous p
  have hnn : ∀ x ∈ Set.Icc (-1 : ℝ) 1, 0 ≤ p.eval x := by
    have hcl : IsClosed {x | 0 ≤ p.eval x} := isClosed_le continuous_const hcont
    have := hcl.closure_subset_iff.2 (fun x (hx : x ∈ Set.Ioo (-1 : ℝ) 1) => h x hx.1 hx.2)
    rw [closure_Ioo (by norm_num : (-1 : ℝ) ≠ 1)] at this
    exact this
  exact intervalIntegral.integral_pos (by norm_num) hcont.continuousOn (fun x hx => hnn x ⟨hx.1.le, hx.2⟩) ⟨c, ⟨hc.1.le, hc.2.le⟩, lt_of_le_of_ne (h c hc.1 hc.2) h0.symm⟩

theorem integ_parts (p q : ℝ[X]) (h1 : p.eval 1 = 0) (h2 : p.eval (-1) = 0) : integ (derivative p * q) = -integ (p * derivative q) := by
  have h := integral_derivative (p * q) (-1) 1
  rw [derivative_mul, eval_mul, eval_mul, h1, h2, zero_mul, zero_mul, sub_zero] at h
  have := integ_add (derivative p * q) (p * derivative q)
  rw [integ, h] at this
  linarith

/-- Legendre polynomials are orthogonal to all polynomials of lower degree. -/
theorem leg_orthogonal : ∀ (d k : ℕ) (q : ℝ[X]), q.natDegree ≤ d → d < k → integ (legendre k * q) = 0 := by
  intro d
  induction d with
  | zero =>
    intro k q hq hk
    rw [eq_C_of_natDegree_le_zero hq, mul_comm, integ_C_mul]
    obtain ⟨j, rfl⟩ : ∃ j, k = j + 1 := ⟨k - 1, by omega⟩
    rw [integ, integral_leg, mul_zero]
  | succ d ih =>
    intro k q hq hk
    obtain ⟨j, rfl⟩ : ∃ j, k = j + 1 := ⟨k - 1, by omega⟩
    have hj : (2 * (j : ℝ) + 3) ≠ 0 := by positivity
    have h := integ_parts (legendre (j + 2) - legendre j) q (by simp [leg_one]) (by simp [leg_neg_one, pow_add])
    have hd : (derivative q).natDegree ≤ d := (natDegree_derivative_le q).trans (by omega)
    have e1 : derivative (legendre (j + 2) - legendre j) * q = C (2 * (j : ℝ) + 3) * (legendre (j + 1) * q) := by
      rw [derivative_sub, leg_deriv_sub]
      simp only [C_add, C_mul, C_ofNat2, C_ofNat3, map_natCast]
      ring
    have e2 : (legendre (j + 2) - legendre j) * derivative q = legendre (j + 2) * derivative q + C (-1) * (legendre j * derivative q) := by
      rw [C_neg, C_1]; ring
    rw [e1, e2, integ_C_mul, integ_add, integ_C_mul, ih (j + 2) _ hd (by omega), ih j _ hd (by omega)] at h
    simpa [hj] using h

theorem leg_natDegree (k : ℕ) : (legendre k).natDegree = k :=
  le_antisymm (leg_degree_le k) (le_natDegree_of_ne_zero (leg_coeff_pos k).ne')

theorem leg_ne_zero (k : ℕ) : legendre k ≠ 0 := fun h => by
  have := leg_coeff_pos k
  rw [h] at this
  simp at this

/-- A factor of the Legendre polynomial changes its sign, unless its cofactor has the full degree. -/
theorem leg_factor {k : ℕ} {g q : ℝ[X]} (h : legendre k = g * q) (hq : q.natDegree < k) : (¬ ∀ x, -1 < x → x < 1 → 0 ≤ g.eval x) ∧ ¬ ∀ x, -1 < x → x < 1 → g.eval x ≤ 0 := by
  have h0 := leg_ne_zero k
  have hg : g ≠ 0 := fun e => h0 (by rw [h, e, zero_mul])
  have hq0 : q ≠ 0 := fun e => h0 (by rw [h, e, mul_zero])
  have ho := leg_orthogonal q.natDegree k q le_rfl hq
  rw [h] at ho
  constructor
  · intro hs
    have := integ_pos (p := g * q * q) (mul_ne_zero (mul_ne_zero hg hq0) hq0) fun x h1 h2 => by
      rw [eval_mul, eval_mul, mul_assoc]
      exact mul_nonneg (hs x h1 h2) (mul_self_nonneg _)
    rw [ho] at this
    exact lt_irrefl _ this
  · intro hs
    have := integ_pos (p := C (-1) * (g * q * q)) (mul_ne_zero (by simp) (mul_ne_zero (mul_ne_zero hg hq0) hq0)) fun x h1 h2 => by
      rw [eval_mul, eval_mul, eval_mul, mul_assoc, eval_C]
      have := mul_nonneg (neg_nonneg.2 (hs x h1 h2)) (mul_self_nonneg (q.eval x))
      linarith
    rw [integ_C_mul, ho, mul_zero] at this
    exact lt_irrefl _ this

theorem leg_splits (k : ℕ) : (legendre k).Splits := by
  rw [splits_iff_splits]
  right
  intro g hg hd
  obtain ⟨q, hq⟩ := hd
  have h2 := hg.degree_le_two
  have h0 : g ≠ 0 := hg.ne_zero
  have hq0 : q ≠ 0 := fun e => leg_ne_zero k (by rw [hq, e, mul_zero])
  have hn : g.natDegree ≤ 2 := natDegree_le_iff_degree_le.2 h2
  have hpos : 0 < g.natDegree := hg.natDegree_pos
  by_contra hne
  have hn2 : g.natDegree ≠ 1 := fun e => hne ((degree_eq_iff_natDegree_eq h0).2 e)
  have hroot : ∀ x, g.eval x ≠ 0 := fun x hx => hne (degree_eq_one_of_irreducible_of_root hg hx)
  have hdeg : q.natDegree < k := by
    have := congrArg natDegree hq
    rw [leg_natDegree, natDegree_mul h0 hq0] at this
    omega
  obtain ⟨f1, f2⟩ := leg_factor hq hdeg
  rcases lt_or_gt_of_ne (hroot 0) with hs | hs
  · refine f2 fun x _ _ => ?_
    by_contra hx
    push Not at hx
    obtain ⟨c, -, hc⟩ := (intermediate_value_uIcc (Polynomial.continuous g).continuousOn (a := 0) (b := x)) (Set.mem_uIcc.2 (Or.inl ⟨hs.le, hx.le⟩))
    exact hroot c hc
  · refine f1 fun x _ _ => ?_
    by_contra hx
    push Not at hx
    obtain ⟨c, -, hc⟩ := (intermediate_value_uIcc (Polynomial.continuous g).continuousOn (a := 0) (b := x)) (Set.mem_uIcc.2 (Or.inr ⟨hx.le, hs.le⟩))
    exact hroot c hc

theorem leg_roots_nodup (k : ℕ) : (legendre k).roots.Nodup := by
  rw [Multiset.nodup_iff_count_le_one]
  intro r
  rw [count_roots]
  by_contra h
  push Not at h
  obtain ⟨q, hq⟩ := (le_rootMultiplicity_iff (leg_ne_zero k)).1 (Nat.succ_le_of_lt h)
  have hq0 : q ≠ 0 := fun e => leg_ne_zero k (by rw [hq, e, mul_zero])
  have hdeg : q.natDegree < k := by
    have := congrArg natDegree hq
    rw [leg_natDegree, natDegree_mul (pow_ne_zero _ (X_sub_C_ne_zero r)) hq0, natDegree_pow, natDegree_X_sub_C] at this
    omega
  exact (leg_factor hq hdeg).1 fun x _ _ => by
    rw [eval_pow]
    exact Even.pow_nonneg (by norm_num) _

/-- For every `n` there are points and weights that do what `leggauss(n+1)` promises; the points are the zeros of the Legendre polynomial. -/
theorem exists_rule (n : ℕ) : ∃ pts w, Rule n pts w ∧ ∀ j ≤ n, (legendre (n + 1)).eval (pts j) = 0 := by
  classical
  have hcard : (legendre (n + 1)).roots.toFinset.card = n + 1 := by
    rw [Multiset.toFinset_card_of_nodup (leg_roots_nodup _), ← (leg_splits (n + 1)).natDegree_eq_card_roots, leg_natDegree]
  let e := (legendre (n + 1)).roots.toFinset.equivFinOfCardEq hcard
  let pts : ℕ → ℝ := fun j => if h : j < n + 1 then (e.symm ⟨j, h⟩ : ℝ) else 0
  have hpts : ∀ j, ∀ h : j < n + 1, pts j = (e.symm ⟨j, h⟩ : ℝ) := fun j h => dif_pos h
  have hroot : ∀ j ≤ n, (legendre (n + 1)).eval (pts j) = 0 := fun j hj => by
    rw [hpts j (by omega)]
    have := (e.symm ⟨j, by omega⟩).2
    rw [Multiset.mem_toFinset, mem_roots (leg_ne_zero _)] at this
    exact this
  have hinj : ∀ i ≤ n, ∀ j ≤ n, pts i = pts j → i = j := fun i hi j hj h => by
    rw [hpts i (by omega), hpts j (by omega)] at h
    have := e.symm.injective (Subtype.ext h)
    exact congrArg Fin.val this
  have hinjOn : Set.InjOn pts (range (n + 1) : Set ℕ) := fun i hi j hj h =>
    hinj i (by simpa [Nat.lt_succ_iff] using hi) j (by simpa [Nat.lt_succ_iff] using hj) h
  let l : ℕ → ℝ[X] := fun j => Lagrange.basis (range (n + 1)) pts j
  have hlow : ∀ p : ℝ[X], p.natDegree ≤ n → ∑ j ∈ range (n + 1), integ (l j) * p.eval (pts j) = integ p := fun p hp => by
    have h := Lagrange.eq_interpolate hinjOn (f := p) (lt_of_le_of_lt degree_le_natDegree (by rw [card_range]; exact_mod_cast Nat.lt_succ_of_le hp))
    conv_rhs => rw [h, Lagrange.interpolate_apply, integ_sum]
    exact sum_congr rfl fun j _ => by rw [integ_C_mul, mul_comm]
  have hex : ∀ p : ℝ[X], p.natDegree ≤ 2 * n + 1 → ∑ j ∈ range (n + 1), integ (l j) * p.eval (pts j) = integ p := fun p hp => by
    have hL := leg_ne_zero (n + 1)
    have hdiv := EuclideanDomain.div_add_mod p (legendre (n + 1))
    have hr : (p % legendre (n + 1)).natDegree ≤ n := by
      by_cases hz : p % legendre (n + 1) = 0
      · rw [hz]; simp
      · have := natDegree_lt_natDegree hz (EuclideanDomain.mod_lt p hL)
        rw [leg_natDegree] at this
        omega
    have hs : (p / legendre (n + 1)).natDegree ≤ n := by
      by_cases hs0 : p / legendre (n + 1) = 0
      · rw [hs0]; simp
      · have h1 : (legendre (n + 1) * (p / legendre (n + 1))).natDegree ≤ 2 * n + 1 := by
          rw [show legendre (n + 1) * (p / legendre (n + 1)) = p - p % legendre (n + 1) by rw [eq_sub_iff_add_eq]; exact hdiv]
          exact (natDegree_sub_le _ _).trans (max_le hp (by omega))
        rw [natDegree_mul hL hs0, leg_natDegree] at h1
        omega
    rw [← hdiv, integ_add, leg_orthogonal n (n + 1) _ hs (by omega), zero_add, ← hlow _ hr]
    refine sum_congr rfl fun j hj => ?_
    rw [eval_add, eval_mul, hroot j (by simpa [Nat.lt_succ_iff] using hj), zero_mul, zero_add]
  refine ⟨pts, fun j => integ (l j), ⟨fun j hj => ?_, hinj, hex⟩, hroot⟩
  have hjm : j ∈ range (n + 1) := mem_range.2 (by omega)
  have hl0 : l j ≠ 0 := fun h => by
    have := Lagrange.eval_basis_self hinjOn hjm
    rw [show Lagrange.basis (range (n + 1)) pts j = 0 from h] at this
    simp at this
  have hdeg : (l j).natDegree ≤ n := natDegree_le_iff_degree_le.2 (by
    rw [show (l j).degree = _ from Lagrange.degree_basis hinjOn hjm, card_range]
    simp)
  have h := hex (l j * l j) (natDegree_mul_le.trans (by omega))
  rw [sum_eq_single j (fun i hi hij => by
    rw [eval_mul, show (l j).eval (pts i) = 0 from Lagrange.eval_basis_of_ne hij.symm hi, mul_zero, mul_zero]) fun h => absurd hjm h, eval_mul,
    show (l j).eval (pts j) = 1 from Lagrange.eval_basis_self hinjOn hjm, mul_one, mul_one] at h
  rw [h]
  exact integ_pos (mul_ne_zero hl0 hl0) fun x _ _ => by rw [eval_mul]; exact mul_self_nonneg _

/-- The points of such a rule are inside the interval. -/
theorem Rule.inside {n : ℕ} {pts w : ℕ → ℝ} (hR : Rule n pts w) {j : ℕ} (hj : j ≤ n) : -1 < pts j ∧ pts j < 1 := by
  let q : ℝ[X] := ∏ i ∈ (range (n + 1)).erase j, (X - C (pts i))
  have hjm : j ∈ range (n + 1) := mem_range.2 (by omega)
  have hq : q.natDegree = n := by
    rw [natDegree_prod_of_monic _ _ fun i _ => monic_X_sub_C _]
    simp [card_erase_of_mem hjm]
  have hq0 : q ≠ 0 := prod_ne_zero_iff.2 fun i _ => X_sub_C_ne_zero _
  have hz : ∀ i ∈ range (n + 1), i ≠ j → q.eval (pts i) = 0 := fun i hi hij => by
    rw [eval_prod]
    exact prod_eq_zero (mem_erase.2 ⟨hij, hi⟩) (by simp)
  have key : ∀ s : ℝ[X], s.natDegree ≤ 1 → s ≠ 0 → (∀ x, -1 < x → x < 1 → 0 ≤ s.eval x) → 0 < s.eval (pts j) := fun s hs hs0 hsx => by
    have h := hR.exact (s * (q * q)) (natDegree_mul_le.trans (by have := natDegree_mul_le (p := q) (q := q); omega))
    rw [sum_eq_single j (fun i hi hij => by rw [eval_mul, eval_mul, hz i hi hij, mul_zero, mul_zero, mul_zero]) fun h => absurd hjm h] at h
    have hp : 0 < integ (s * (q * q)) := integ_pos (mul_ne_zero hs0 (mul_ne_zero hq0 hq0)) fun x h1 h2 => by
      rw [eval_mul, eval_mul]
      exact mul_nonneg (hsx x h1 h2) (mul_self_nonneg _)
    rw [integ, ← h, eval_mul, eval_mul] at hp
    by_contra hcon
    push Not at hcon
    have := mul_nonneg (hR.positive j hj).le (mul_nonneg (neg_nonneg.2 hcon) (mul_self_nonneg (q.eval (pts j))))
    linarith
  constructor
  · have := key (X + C 1) (natDegree_X_add_C (1 : ℝ)).le (X_add_C_ne_zero 1) fun x h1 _ => by simp; linarith
    simp at this; linarith
  · have := key (C (-1) * (X - C 1)) ((natDegree_C_mul_le _ _).trans (natDegree_X_sub_C (1 : ℝ)).le) (mul_ne_zero (by simp) (X_sub_C_ne_zero 1)) fun x _ h2 => by
      simp; linarith
    simp at this; linarith

end SpectralDNS.Leg

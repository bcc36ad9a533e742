import Verif.Props.OrrSommerfeld
import Verif.Props.Pressure

/-!
# C113: the integral that the channel demos measure with is positive definite

`utilities.dx` integrates with the weights of Fejér and of Clenshaw and Curtis.  All the weights are positive, whatever the number of points, so
that an error measured with `dx` is non-negative and bounds the error at every point.
-/

namespace SpectralDNS.Utilities

open Finset

/-- The integrals of the even Chebyshev polynomials (halved for the first), as `dx` fills them in. -/
noncomputable def momentW (k : ℕ) : ℝ := if k % 2 = 1 then 0 else if k = 0 then 1 else 2 / (1 - (k : ℝ) ^ 2)

/-- A sum of these with factors between -1 and 1 is positive, because `1 = 2/3 + 2/15 + 2/35 + ...`. -/
theorem moment_sum (g : ℕ → ℝ) (h0 : g 0 = 1) (hg : ∀ k, |g k| ≤ 1) (m : ℕ) :
    1 / (2 * m + 1 : ℝ) ≤ ∑ k ∈ range (2 * m + 1), momentW k * g k ∧ 1 / (2 * m + 1 : ℝ) ≤ ∑ k ∈ range (2 * m + 2), momentW k * g k := by
  have hodd : ∀ m, ∑ k ∈ range (2 * m + 2), momentW k * g k = ∑ k ∈ range (2 * m + 1), momentW k * g k := fun m => by
    rw [sum_range_succ, momentW, if_pos (by omega), zero_mul, add_zero]
  rw [hodd]
  refine ⟨?_, ?_⟩ <;>
  · induction m with
    | zero => simp [momentW, h0]
    | succ m ih =>
      rw [show 2 * (m + 1) + 1 = 2 * m + 2 + 1 by ring, sum_range_succ, hodd]
      have hw : momentW (2 * m + 2) = -(2 / ((2 * m + 2 : ℝ) ^ 2 - 1)) := by
        rw [momentW, if_neg (by omega), if_neg (by omega)]
        push_cast
        rw [← neg_sub, div_neg]
      have hp : (0 : ℝ) < (2 * m + 2 : ℝ) ^ 2 - 1 := by nlinarith [Nat.cast_nonneg (α := ℝ) m]
      have hb : -(2 / ((2 * m + 2 : ℝ) ^ 2 - 1)) ≤ momentW (2 * m + 2) * g (2 * m + 2) := by
        have := (abs_le.1 (hg (2 * m + 2))).2
        rw [hw]
        nlinarith [div_pos two_pos hp]
      have e : 1 / (2 * ((m + 1 : ℕ) : ℝ) + 1) = 1 / (2 * m + 1 : ℝ) - 2 / ((2 * m + 2 : ℝ) ^ 2 - 1) := by
        have : (2 * m + 1 : ℝ) ≠ 0 := by positivity
        have : (2 * m + 3 : ℝ) ≠ 0 := by positivity
        rw [show (2 * m + 2 : ℝ) ^ 2 - 1 = (2 * m + 1) * (2 * m + 3) by ring]
        push_cast
        rw [show 2 * ((m : ℝ) + 1) + 1 = 2 * m + 3 by ring]
        field_simp
        ring
      rw [e]
      linarith

theorem moment_pos (g : ℕ → ℝ) (h0 : g 0 = 1) (hg : ∀ k, |g k| ≤ 1) {M : ℕ} (hM : 0 < M) : 1 / (M : ℝ) ≤ ∑ k ∈ range M, momentW k * g k := by
  rcases Nat.even_or_odd' M with ⟨m, rfl | rfl⟩
  · obtain ⟨m, rfl⟩ : ∃ l, m = l + 1 := ⟨m - 1, by omega⟩
    refine le_trans ?_ (moment_sum g h0 hg m).2
    exact one_div_le_one_div_of_le (by positivity) (by push_cast; linarith)
  · refine le_trans (le_of_eq ?_) (moment_sum g h0 hg m).1
    push_cast; rfl

/-- `dx` with Gauss points in the form of a quadrature, with its weights. -/
theorem dxGC_weights {M : ℕ} (hM : 0 < M) : ∃ w : ℕ → ℝ, (∀ j, 1 / (M : ℝ) ^ 2 ≤ w j) ∧ ∀ c, dxGC M c = ∑ j ∈ range M, w j * c j := by
  refine ⟨fun j => 2 / (M : ℝ) * ∑ k ∈ range M, momentW k * Real.cos (Real.pi * k * (j + 1 / 2) / M), fun j => ?_, fun c => ?_⟩
  · have h := moment_pos (fun k => Real.cos (Real.pi * k * (j + 1 / 2) / M)) (by simp) (fun k => Real.abs_cos_le_one _) hM
    have hM' : (0 : ℝ) < M := by exact_mod_cast hM
    calc 1 / (M : ℝ) ^ 2 ≤ 2 / (M : ℝ) * (1 / M) := by
          rw [div_mul_div_comm, ← sq, mul_one]
          exact div_le_div_of_nonneg_right one_le_two (by positivity)
      _ ≤ _ := mul_le_mul_of_nonneg_left h (by positivity)
  · unfold dxGC dct3
    refine sum_congr rfl fun j _ => ?_
    rw [mul_comm]
    congr 1
    obtain ⟨M, rfl⟩ : ∃ l, M = l + 1 := ⟨M - 1, by omega⟩
    dsimp only
    rw [sum_range_succ' (fun k : ℕ => momentW k * _)]
    simp only [momentW, Nat.add_sub_cancel]
    simp only [Nat.zero_mod, ↓reduceIte, zero_ne_one, CharP.cast_eq_zero, mul_zero, zero_mul, zero_div, Real.cos_zero, mul_one, div_one]
    rw [mul_add, mul_one, add_comm, mul_sum, mul_sum]
    congr 1
    refine sum_congr rfl fun k _ => ?_
    have e : (1 : ℝ) - (k + 1 : ℕ) * (k + 1 : ℕ) = 1 - ((k + 1 : ℕ) : ℝ) ^ 2 := by ring
    rcases Nat.mod_two_eq_zero_or_one (k + 1) with h | h
    · simp only [h, ↓reduceIte, zero_ne_one, Nat.succ_ne_zero, if_false, e]
      push_cast; ring
    · simp [h]

/-- `dx` with Gauss-Lobatto points in the form of a quadrature, with its weights. -/
theorem dxGL_weights (n : ℕ) : ∃ w : ℕ → ℝ, (∀ j, 1 / ((n + 2 : ℕ) : ℝ) ^ 2 ≤ w j) ∧ ∀ c, dxGL n c = ∑ j ∈ range (n + 2), w j * c j := by
  let S : ℕ → ℝ := fun j => ∑ k ∈ range (n + 2), momentW k * Real.cos (Real.pi * j * k / (n + 1))
  have hS : ∀ j, 1 / ((n + 2 : ℕ) : ℝ) ≤ S j := fun j =>
    moment_pos (fun k => Real.cos (Real.pi * j * k / (n + 1))) (by simp) (fun k => Real.abs_cos_le_one _) (by omega)
  have hn : (0 : ℝ) < (n : ℝ) + 1 := by positivity
  refine ⟨fun j => (if j = 0 ∨ j = n + 1 then 1 else 2) / ((n : ℝ) + 1) * S j, fun j => ?_, fun c => ?_⟩
  · have h1 : 1 / ((n + 2 : ℕ) : ℝ) ≤ (if j = 0 ∨ j = n + 1 then 1 else 2) / ((n : ℝ) + 1) := by
      rw [div_le_div_iff₀ (by positivity) hn]
      push_cast
      split_ifs <;> linarith
    calc 1 / ((n + 2 : ℕ) : ℝ) ^ 2 = 1 / ((n + 2 : ℕ) : ℝ) * (1 / ((n + 2 : ℕ) : ℝ)) := by rw [div_mul_div_comm, ← sq, ← sq, one_pow]
      _ ≤ _ := mul_le_mul h1 (hS j) (by positivity) (le_trans (by positivity) h1)
  · unfold dxGL dct1
    have hc : ∀ k : ℕ, Real.cos (Real.pi * ((n + 1 : ℕ) : ℝ) * k / (n + 1)) = (-1) ^ k := fun k => by
      rw [← Real.cos_nat_mul_pi]
      congr 1
      push_cast
      field_simp
    have hsplit : ∀ f : ℕ → ℝ, ∑ j ∈ range (n + 2), f j = ∑ j ∈ range n, f (j + 1) + f 0 + f (n + 1) := fun f => by
      rw [sum_range_succ, sum_range_succ']
    rw [hsplit fun j => (if j = 0 ∨ j = n + 1 then (1 : ℝ) else 2) / ((n : ℝ) + 1) * S j * c j]
    rw [if_pos (Or.inl rfl), if_pos (Or.inr rfl)]
    have hi : ∀ j ∈ range n, (if j + 1 = 0 ∨ j + 1 = n + 1 then (1 : ℝ) else 2) / ((n : ℝ) + 1) * S (j + 1) * c (j + 1) =
        2 / ((n : ℝ) + 1) * S (j + 1) * c (j + 1) := fun j hj => by
      rw [if_neg (by have := mem_range.1 hj; omega)]
    rw [sum_congr rfl hi]
    simp only [S, mul_sum, sum_mul]
    rw [sum_comm, ← sum_add_distrib, ← sum_add_distrib]
    refine sum_congr rfl fun k _ => ?_
    rw [hc]
    have e1 : ((n + 2 : ℕ) : ℝ) - 1 = n + 1 := by push_cast; ring
    simp only [e1, Nat.cast_zero, mul_zero, zero_mul, zero_div, Real.cos_zero, Nat.cast_add, Nat.cast_one]
    change _ / _ * momentW k = _
    rw [add_div, add_mul, add_comm, add_assoc]
    congr 1
    · rw [sum_div, sum_mul]
      exact sum_congr rfl fun j _ => by ring
    · ring

/-- **C113 (weights).**  Both rules of the Chebyshev bases are quadratures whose weights are at least the inverse square of the number of points, and
add up to the width 2 of the channel. -/
theorem C113_weights {M : ℕ} (hM : 0 < M) (rule : (ℕ → ℝ) → ℝ) (hr : rule = dxGC M ∨ ∃ n, M = n + 2 ∧ rule = dxGL n) :
    ∃ w : ℕ → ℝ, (∀ j, 1 / (M : ℝ) ^ 2 ≤ w j) ∧ ∑ j ∈ range M, w j = 2 ∧ ∀ c, rule c = ∑ j ∈ range M, w j * c j := by
  have hT : integ (Polynomial.Chebyshev.T ℝ ((0 : ℕ) : ℤ)) = 2 := by rw [integ_T]; norm_num
  rcases hr with rfl | ⟨n, rfl, rfl⟩
  · obtain ⟨w, h1, h2⟩ := dxGC_weights hM
    refine ⟨w, h1, ?_, h2⟩
    have h := dxGC_T M 0 hM
    rw [hT, h2] at h
    simpa using h
  · obtain ⟨w, h1, h2⟩ := dxGL_weights n
    refine ⟨w, h1, ?_, h2⟩
    have h := dxGL_T n 0 (by omega)
    rw [hT, h2] at h
    simpa using h

/-- **C113 (bounds).**  The integral of a non-negative field is non-negative, it bounds the field at every point, it is at most the volume times the
largest value, and it is zero only for the zero field, however the field is distributed over the ranks. -/
theorem C113_bounds {M : ℕ} (hM : 0 < M) {J R : Type*} [Fintype J] [Fintype R] (rule : (ℕ → ℝ) → ℝ)
    (hr : rule = dxGC M ∨ ∃ n, M = n + 2 ∧ rule = dxGL n) (vol : ℝ) (hv : 0 < vol) (blocks : R → Block M J) (h : Tiles blocks)
    (u : Fin M → J → ℝ) (hu : ∀ j k, 0 ≤ u j k) :
    0 ≤ dx rule vol blocks u ∧ (∀ j k, u j k ≤ (M : ℝ) ^ 2 / vol * dx rule vol blocks u) ∧
      (∀ b, (∀ j k, u j k ≤ b) → dx rule vol blocks u ≤ 2 * (Fintype.card J * vol) * b) ∧ (dx rule vol blocks u = 0 ↔ ∀ j k, u j k = 0) := by
  obtain ⟨w, hw, hs, hrw⟩ := C113_weights hM rule hr
  have hM' : (0 : ℝ) < M := by exact_mod_cast hM
  have hw0 : ∀ j, 0 < w j := fun j => lt_of_lt_of_le (by positivity) (hw j)
  have e : dx rule vol blocks u = (∑ j : Fin M, w j * ∑ k, u j k) * vol := by
    unfold dx
    rw [hrw, ← Fin.sum_univ_eq_sum_range (fun j => w j * (if h : j < M then gather blocks u ⟨j, h⟩ else 0))]
    congr 1
    exact Finset.sum_congr rfl fun j _ => by rw [dif_pos j.2, gather_eq blocks h]
  have hn : ∀ j : Fin M, 0 ≤ w j * ∑ k, u j k := fun j => mul_nonneg (hw0 j).le (Finset.sum_nonneg fun k _ => hu j k)
  have hpt : ∀ j k, u j k ≤ (M : ℝ) ^ 2 / vol * dx rule vol blocks u := fun j k => by
    have h1 : u j k ≤ ∑ k, u j k := Finset.single_le_sum (fun k _ => hu j k) (Finset.mem_univ k)
    have h2 : w j * ∑ k, u j k ≤ ∑ j : Fin M, w j * ∑ k, u j k :=
      Finset.single_le_sum (f := fun j : Fin M => w j * ∑ k, u j k) (fun j _ => hn j) (Finset.mem_univ j)
    have h3 : 1 / (M : ℝ) ^ 2 * u j k ≤ w j * ∑ k, u j k := mul_le_mul (hw j) h1 (hu j k) (hw0 j).le
    rw [e, ← mul_assoc, mul_comm _ vol, ← mul_assoc, mul_div_cancel₀ _ hv.ne']
    calc u j k = (M : ℝ) ^ 2 * (1 / (M : ℝ) ^ 2 * u j k) := by field_simp
      _ ≤ _ := mul_le_mul_of_nonneg_left (h3.trans h2) (by positivity)
  have h0 : 0 ≤ dx rule vol blocks u := e ▸ mul_nonneg (Finset.sum_nonneg fun j _ => hn j) hv.le
  refine ⟨h0, hpt, fun b hb => ?_, fun hz j k => le_antisymm ?_ (hu j k), fun hz => ?_⟩
  · have h1 : ∑ j : Fin M, w j * ∑ k, u j k ≤ ∑ j : Fin M, w j * (Fintype.card J * b) := Finset.sum_le_sum fun j _ =>
      mul_le_mul_of_nonneg_left ((Finset.sum_le_sum fun k _ => hb j k).trans (by simp)) (hw0 j).le
    rw [← Finset.sum_mul, Fin.sum_univ_eq_sum_range, hs] at h1
    rw [e]
    calc _ ≤ 2 * (Fintype.card J * b) * vol := mul_le_mul_of_nonneg_right h1 hv.le
      _ = _ := by ring
  · have := hpt j k
    rwa [hz, mul_zero] at this
  · rw [e]; simp [hz]

/-- **C113 (order).**  Of two fields the larger one has the larger integral. -/
theorem C113_mono {M : ℕ} (hM : 0 < M) {J R : Type*} [Fintype J] [Fintype R] (rule : (ℕ → ℝ) → ℝ)
    (hr : rule = dxGC M ∨ ∃ n, M = n + 2 ∧ rule = dxGL n) (vol : ℝ) (hv : 0 < vol) (blocks : R → Block M J) (h : Tiles blocks)
    (u v : Fin M → J → ℝ) (huv : ∀ j k, u j k ≤ v j k) : dx rule vol blocks u ≤ dx rule vol blocks v := by
  have hR : IsRule M rule := by
    rcases hr with rfl | ⟨n, hn, rfl⟩
    · exact .gc
    · exact .gl n hn
  have h1 := (C113_bounds hM rule hr vol hv blocks h (fun j k => 1 * v j k + -1 * u j k) fun j k => by linarith [huv j k]).1
  rw [C52_linear rule hR] at h1
  linarith

end SpectralDNS.Utilities

namespace SpectralDNS.Channel.OrrSommerfeld

open Polynomial

variable {N : Fin 2 → ℕ}

theorem rule_cases (q : Quad) (n : ℕ) : dxRule n q = Utilities.dxGC (n + 4) ∨ ∃ l, n + 4 = l + 2 ∧ dxRule n q = Utilities.dxGL l := by
  cases q
  · exact Or.inl rfl
  · exact Or.inr ⟨n + 2, rfl, rfl⟩

theorem card_grid : Fintype.card (Periodic.Grid N) = N 0 * N 1 := by
  simp [Periodic.Grid, Fintype.card_pi, Fin.prod_univ_two]

theorem vol_pos (hN : ∀ i, 0 < N i) (L : Fin 2 → ℝ) (hL : ∀ i, 0 < L i) : 0 < L 0 / N 0 * (L 1 / N 1) := by
  have h0 : (0 : ℝ) < N 0 := by exact_mod_cast hN 0
  have h1 : (0 : ℝ) < N 1 := by exact_mod_cast hN 1
  have := hL 0
  have := hL 1
  positivity

theorem vol_card (hN : ∀ i, 0 < N i) (L : Fin 2 → ℝ) : (Fintype.card (Periodic.Grid N) : ℝ) * (L 0 / N 0 * (L 1 / N 1)) = L 0 * L 1 := by
  have h0 : (N 0 : ℝ) ≠ 0 := by exact_mod_cast (hN 0).ne'
  have h1 : (N 1 : ℝ) ≠ 0 := by exact_mod_cast (hN 1).ne'
  rw [card_grid]
  push_cast
  field_simp

/-- **C113 (regression test).**  If the assertion of the Orr-Sommerfeld demo holds, then at every point of the mesh both velocity components are as
near to the mode as the tolerance allows; and it holds if they are near enough at every point. -/
theorem C113_regression (q : Quad) (n : ℕ) (L : Fin 2 → ℝ) (hL : ∀ i, 0 < L i) (hN : ∀ i, 0 < N i) {R : Type*} [Fintype R]
    (blocks : R → Utilities.Block (n + 4) (Periodic.Grid N)) (hb : Utilities.Tiles blocks) (eps : ℝ) {m : ℕ} (v : Fin m → ℂ) (c : ℂ) (t : ℝ)
    (U0 U1 : Fin (n + 4) → Periodic.Grid N → ℝ) (tol : ℝ) (ht : 0 < tol) :
    let d := fun j p => (U0 j p - initOS0 q n L eps v c t j p) ^ 2 + (U1 j p - initOS1 q n L eps v c t j p) ^ 2
    let pass := regressionTest (errorEnergy q n L blocks eps v c t U0 U1) tol
    (pass → ∀ j p, d j p < 2 * ((n + 4 : ℕ) : ℝ) ^ 2 * (N 0 * N 1) / (L 0 * L 1) * tol ^ 2) ∧
      ((∀ j p, d j p < tol ^ 2 / (L 0 * L 1)) → pass) := by
  intro d pass
  have hvol := vol_pos hN L hL
  obtain ⟨h0, h1, h2, -⟩ := Utilities.C113_bounds (by omega : 0 < n + 4) (dxRule n q) (rule_cases q n) _ hvol blocks hb d
    fun j p => add_nonneg (sq_nonneg _) (sq_nonneg _)
  have hLL : 0 < L 0 * L 1 := mul_pos (hL 0) (hL 1)
  have hN0 : (0 : ℝ) < N 0 := by exact_mod_cast hN 0
  have hN1 : (0 : ℝ) < N 1 := by exact_mod_cast hN 1
  refine ⟨fun hp j p => ?_, fun hd => ?_⟩
  · have hp' : 0.5 * dxChannel q n L blocks d < tol ^ 2 := (Real.sqrt_lt' ht).1 hp
    have hp2 : Utilities.dx (dxRule n q) (L 0 / N 0 * (L 1 / N 1)) blocks d < 2 * tol ^ 2 := by
      have : Utilities.dx (dxRule n q) (L 0 / N 0 * (L 1 / N 1)) blocks d = dxChannel q n L blocks d := rfl
      rw [this]; linarith
    refine (h1 j p).trans_lt ?_
    have hc : 0 < ((n + 4 : ℕ) : ℝ) ^ 2 / (L 0 / N 0 * (L 1 / N 1)) := by positivity
    refine (mul_lt_mul_of_pos_left hp2 hc).trans_le (le_of_eq ?_)
    have := (hL 0).ne'
    have := (hL 1).ne'
    field_simp
  · refine (Real.sqrt_lt' ht).2 ?_
    show 0.5 * Utilities.dx (dxRule n q) (L 0 / N 0 * (L 1 / N 1)) blocks d < tol ^ 2
    haveI : ∀ i, Nonempty (Fin (N i)) := fun i => ⟨⟨0, hN i⟩⟩
    obtain ⟨i, -, hi⟩ := Finset.exists_max_image (Finset.univ : Finset (Fin (n + 4) × Periodic.Grid N)) (fun i => d i.1 i.2)
      ⟨(⟨0, by omega⟩, fun i => ⟨0, hN i⟩), Finset.mem_univ _⟩
    have h3 := h2 (d i.1 i.2) fun j p => hi (j, p) (Finset.mem_univ _)
    rw [vol_card hN] at h3
    have h4 := mul_lt_mul_of_pos_left (hd i.1 i.2) hLL
    rw [mul_div_cancel₀ _ hLL.ne'] at h4
    linarith

/-- **C113 (growth rate).**  For a non-zero eigenfunction resolved by the mesh the energy by which the demo divides is not zero, so that the quotient
`e1/e0` which it compares with `exact` is defined, and equals it for the flow of `initOS`. -/
theorem C113_growth_rate (q : Quad) (n : ℕ) (L : Fin 2 → ℝ) (hL : L 0 = 2 * Real.pi) (hL1 : 0 < L 1) (hN : ∀ i, 0 < N i) (h3 : 3 ≤ N 0) {R : Type*}
    [Fintype R] (blocks : R → Utilities.Block (n + 4) (Periodic.Grid N)) (hb : Utilities.Tiles blocks) (eps : ℝ) (he : eps ≠ 0) {m : ℕ}
    (hm : m ≤ n) (v : Fin m → ℂ) (hv : v ≠ 0) (c : ℂ) (t : ℝ) :
    let e := fun t => pertEnergy (N := N) q n L blocks (initOS0 q n L eps v c t) (initOS1 q n L eps v c t)
    0 < e 0 ∧ e t / e 0 = exact c t := by
  intro e
  have hL' : ∀ i, 0 < L i := fun i => by
    fin_cases i
    · show 0 < L 0; rw [hL]; positivity
    · exact hL1
  have hg := C88_growth (N := N) q n L hL hN h3 blocks hb eps v c t
  suffices h : 0 < e 0 from ⟨h, by rw [show e t = _ from hg, mul_div_assoc, div_self h.ne', mul_one]⟩
  let d : Fin (n + 4) → Periodic.Grid N → ℝ := fun j p => initOS0 q n L eps v c 0 j p ^ 2 +
      (initOS1 q n L eps v c 0 j p - (1 - quadPoint q (n + 4) j ^ 2)) ^ 2
  obtain ⟨h0, -, -, h1⟩ := Utilities.C113_bounds (by omega : 0 < n + 4) (dxRule n q) (rule_cases q n) _ (vol_pos hN L hL') blocks hb d
    fun j p => add_nonneg (sq_nonneg _) (sq_nonneg _)
  have hd : Utilities.dx (dxRule n q) (L 0 / N 0 * (L 1 / N 1)) blocks d ≠ 0 := fun hz => hv ?_
  · have := lt_of_le_of_ne h0 hd.symm
    show 0 < 0.5 * Utilities.dx (dxRule n q) (L 0 / N 0 * (L 1 / N 1)) blocks d
    positivity
  have hz' := h1.1 hz
  have hzero : ∀ j : Fin (n + 4), (interp v (quadPoint q (n + 4) j)).1 = 0 := fun j => by
    have hs := pert_sum (N := N) q n L hL hN h3 eps v c 0 j
    rw [Finset.sum_eq_zero fun p _ => hz' j p] at hs
    have hc : (0 : ℝ) < Fintype.card (Periodic.Grid N) := by
      rw [card_grid]; exact_mod_cast Nat.mul_pos (hN 0) (hN 1)
    have hx : 0 < exact c 0 := Real.exp_pos _
    have he2 : 0 < eps ^ 2 := by positivity
    have n1 := Complex.normSq_nonneg (interp v (quadPoint q (n + 4) j)).1
    have n2 := Complex.normSq_nonneg (interp v (quadPoint q (n + 4) j)).2
    rcases mul_eq_zero.1 hs.symm with hh | hh
    · exact absurd hh hx.ne'
    rcases mul_eq_zero.1 hh with hh | hh
    · exact absurd hh hc.ne'
    refine Complex.normSq_eq_zero.1 (le_antisymm ?_ n1)
    nlinarith
  have hp : expandC psi v = 0 := by
    refine Polynomial.eq_zero_of_degree_lt_of_eval_finset_eq_zero ((Finset.range (n + 4)).image fun j => (quadPoint q (n + 4) j : ℂ)) ?_ ?_
    · rw [Finset.card_image_of_injOn fun a ha b hb h => quadPoint_inj q (n + 4) (by omega) ha hb (Complex.ofReal_injective h), Finset.card_range]
      exact (expandC_degree psi 4 m degree_psi v).trans_le (by exact_mod_cast (by omega : m + 4 ≤ n + 4))
    · intro x hx
      obtain ⟨j, hj, rfl⟩ := Finset.mem_image.1 hx
      exact hzero ⟨j, Finset.mem_range.1 hj⟩
  exact expandC_phi_injective m psi 4 degree_psi (by rw [hp, map_zero])

/-! ## Concrete cases -/

/-- On four Gauss points the integral of the square of a field on one rank bounds each of its values. -/
example (u : Fin 4 → Unit → ℝ) (j : Fin 4) : u j () ^ 2 ≤ 16 * Utilities.dx (Utilities.dxGC 4) 1 (fun _ : Unit => ⟨Finset.univ, Finset.univ⟩) fun j k => u j k ^ 2 := by
  have := (Utilities.C113_bounds (by norm_num : 0 < 4) (Utilities.dxGC 4) (Or.inl rfl) 1 one_pos (fun _ : Unit => ⟨Finset.univ, Finset.univ⟩)
    (fun j k => ⟨(), by simp, by simp⟩) (fun j k => u j k ^ 2) fun j k => sq_nonneg _).2.1 j ()
  norm_num at this
  exact this

/-- The energy of a wave with one coefficient on a mesh of 5 x 4 x 2 points is positive. -/
example (q : Quad) : 0 < pertEnergy (N := ![4, 2]) q 1 ![2 * Real.pi, 1] (fun _ : Unit => ⟨Finset.univ, Finset.univ⟩)
    (initOS0 q 1 ![2 * Real.pi, 1] 1e-7 ![1] Complex.I 0) (initOS1 q 1 ![2 * Real.pi, 1] 1e-7 ![1] Complex.I 0) :=
  (C113_growth_rate q 1 ![2 * Real.pi, 1] rfl (by simp) (fun i => by fin_cases i <;> simp) (by simp) _ (fun j k => ⟨(), by simp, by simp⟩) 1e-7
    (by norm_num) le_rfl ![1] (by simp) Complex.I 0).1

end SpectralDNS.Channel.OrrSommerfeld

import Verif.Model.ChebNeumannHelm
import Verif.Lemmas.ChebPoissonNeumann
import Mathlib.LinearAlgebra.Matrix.ToLinearEquiv
import Mathlib.Algebra.Polynomial.Roots

/-!
# C130: the naive Neumann Helmholtz solver (sandbox/cheb_helmholtz_neumann_sft.py)

With the switch `ST.quad == "GC"` on, the matrix is the one of Gauss-Lobatto quadrature, and with the switch off the one of Gauss quadrature: the names are the wrong way
round.
-/

namespace SpectralDNS.Sandbox.Neumann.Helm

open Polynomial Polynomial.Chebyshev Real Finset Channel ChebWeight

/-- The quadrature whose matrix is built. -/
def quadOf (gc : Bool) : Quad := if gc then .GL else .GC

theorem diagLoop_const (g : ℕ → ℝ) (L : List ℕ) (A : ℕ → ℕ → ℝ) (i j : ℕ) :
    (L.map fun x => (g, x)).foldl (fun A (d : (ℕ → ℝ) × ℕ) i j => if j = i + d.2 then d.1 i else A i j) A i j =
      if ∃ x ∈ L, j = i + x then g i else A i j := by
  induction L generalizing A with
  | nil => simp
  | cons a L ih =>
    rw [List.map_cons, List.foldl_cons, ih]
    by_cases h : ∃ x ∈ L, j = i + x
    · rw [if_pos h, if_pos]
      obtain ⟨x, hx, h⟩ := h
      exact ⟨x, List.mem_cons_of_mem _ hx, h⟩
    · rw [if_neg h]
      by_cases h2 : j = i + a
      · rw [if_pos h2, if_pos ⟨a, List.mem_cons_self, h2⟩]
      · rw [if_neg h2, if_neg]
        rintro ⟨x, hx, hr⟩
        rcases List.mem_cons.1 hx with rfl | hx
        · exact h2 hr
        · exact h ⟨x, hx, hr⟩

theorem lengths (N : ℕ) (hN : 4 ≤ N) : (aij N).length = (offsets N).length := by
  simp only [aij, offsets, List.length_append, List.length_map, List.length_range', List.length_cons, List.length_nil]
  omega

theorem A_stiff (N : ℕ) (hN : 4 ≤ N) (i j : ℕ) (hj : j < N - 3) :
    diags ((aij N).zip (offsets N)) i j * ((j + 1 : ℕ) : ℝ) ^ 2 = -stiff (i + 1) (j + 1) := by
  have hz : ∀ (g : ℕ → ℝ) (L : List ℕ), (L.map fun _ => g).zip L = L.map fun x => (g, x) := fun g L => by
    induction L with
    | nil => rfl
    | cons a L ih => rw [List.map_cons, List.zip_cons_cons, ih, List.map_cons]
  have hl : (N - 2) / 2 = (N - 4) / 2 + 1 := by omega
  simp only [aij, offsets, hl, List.range'_succ, List.cons_append, List.nil_append, List.zip_cons_cons, diags, List.foldl_cons, hz, zero_add]
  rw [diagLoop_const, stiff]
  by_cases hd : i = j
  · subst hd
    rw [if_neg, if_pos (by omega), if_pos rfl]
    · ring
    · rintro ⟨l, hl, h1⟩
      have h3 := evens_le N l hl
      have := (mem_evens N l h3).1 hl
      omega
  · rw [if_neg (by omega : ¬ i + 1 = j + 1)]
    by_cases h2 : i + 1 < j + 1 ∧ (j + 1 - (i + 1)) % 2 = 0
    · rw [if_pos ⟨j - i, (mem_evens N _ (by omega)).2 (by omega), by omega⟩, if_pos h2]
      ring
    · rw [if_neg, if_neg (by omega), if_neg h2]
      · simp
      · rintro ⟨l, hl, h1⟩
        have h3 := evens_le N l hl
        have := (mem_evens N l h3).1 hl
        omega

theorem B_mass (gc : Bool) (n i j : ℕ) (hi : i < n + 2) (hj : j < n + 2) :
    B gc (n + 5) i j * ((j + 1 : ℕ) : ℝ) ^ 2 = quadrature (quadOf gc) (n + 5) (nphi (j + 1) * nphi (i + 1)) := by
  have hj0 : ((j + 1 : ℕ) : ℝ) ≠ 0 := by positivity
  rw [quad_mass _ n i j hi hj, B, triMatrix]
  by_cases h : i = j
  · subst h
    rw [if_pos rfl, if_pos rfl, div_mul_cancel₀ _ (pow_ne_zero 2 hj0)]
    have e : (if gc then Function.update (fun _ : ℕ => (1 : ℝ)) (n + 5 - 4) 2 else fun _ => 1) i = ck (decide (quadOf gc = .GL)) (n + 5) (i + 3) := by
      cases gc
      · simp [quadOf, ck]
      · by_cases h : i = n + 1
        · subst h
          simp [quadOf, ck]
        · simp only [quadOf, ck, if_true, decide_true]
          rw [Function.update_of_ne (by omega), if_neg (by omega)]
    rw [e, ratio]
    ring
  · rw [if_neg h, if_neg h]
    by_cases h1 : i = j + 2
    · subst h1
      rw [if_pos rfl, if_pos rfl, ratio]
      have e : (((j + 3 : ℕ) : ℝ) - 2) = ((j + 1 : ℕ) : ℝ) := by push_cast; ring
      have e2 : ((j + 3 : ℕ) : ℝ) = ((j + 1 : ℕ) : ℝ) + 2 := by push_cast; ring
      rw [e, e2, div_mul_cancel₀ _ (pow_ne_zero 2 hj0)]
      ring
    · rw [if_neg h1, if_neg h1]
      by_cases h2 : j = i + 2
      · subst h2
        rw [if_pos rfl, if_pos rfl, ratio]
        have e : ((i + 2 + 1 : ℕ) : ℝ) = ((i + 1 : ℕ) : ℝ) + 2 := by push_cast; ring
        rw [e] at hj0 ⊢
        rw [div_mul_cancel₀ _ (pow_ne_zero 2 hj0)]
        ring
      · rw [if_neg h2, if_neg h2, zero_mul]

/-- The matrix of the program. -/
noncomputable def sys (gc : Bool) (N : ℕ) (kx : ℝ) (i j : ℕ) : ℝ := diags ((aij N).zip (offsets N)) i j + kx ^ 2 * B gc N i j

/-- The left-hand side of the Galerkin equations. -/
noncomputable def form (q : Quad) (n : ℕ) (kx : ℝ) (c : ℕ → ℝ) (i : ℕ) : ℝ :=
  quadrature q (n + 5) ((-derivative^[2] (shen (n + 5) c) + kx ^ 2 • shen (n + 5) c) * nphi (i + 1))

theorem stiff_entry_q (q : Quad) (n : ℕ) : (Matrix.of fun i j : Fin (n + 2) => stiff (i + 1) (j + 1)) =
    entry q (n + 5) (fun j => nphi (j + 1)) (fun j => nphi (j + 1)) 2 (n + 2) (n + 2) := by
  have hdeg : ∀ j : Fin (n + 2), (nphi (j + 1)).degree < ((n + 5 : ℕ) : WithBot ℕ) := fun j => by
    rw [degree_nphi]
    exact_mod_cast (by have := j.2; omega : (j : ℕ) + 3 < n + 5)
  ext i j
  rw [entry, quad_exact_form q _ 2 (by omega) (by omega) _ _ (hdeg j) (hdeg i), wint_stiff, Matrix.of_apply]

theorem form_sum (q : Quad) (n : ℕ) (kx : ℝ) (c : ℕ → ℝ) (i : ℕ) (hi : i < n + 2) :
    form q n kx c i = ∑ j ∈ range (n + 2), (-stiff (i + 1) (j + 1) + kx ^ 2 * quadrature q (n + 5) (nphi (j + 1) * nphi (i + 1))) * c j := by
  have h1 := entry_sum q n 2 (fun i j => stiff (i + 1) (j + 1)) (stiff_entry_q q n) c i hi
  have h0 := entry_sum q n 0 (fun i j => quadrature q (n + 5) (nphi (j + 1) * nphi (i + 1))) rfl c i hi
  simp only [Function.iterate_zero, id] at h0
  rw [form, add_mul, map_add, neg_mul, map_neg, smul_mul_assoc, map_smul, smul_eq_mul, ← h1, ← h0, mul_sum, ← sum_neg_distrib, ← sum_add_distrib]
  exact sum_congr rfl fun j _ => by ring

theorem sys_form (gc : Bool) (n : ℕ) (kx : ℝ) (v : ℕ → ℝ) (i : ℕ) (hi : i < n + 2) :
    ∑ j ∈ range (n + 2), sys gc (n + 5) kx i j * v j = form (quadOf gc) n kx (fun j => v j / ((j + 1 : ℕ) : ℝ) ^ 2) i := by
  rw [form_sum _ _ _ _ _ hi]
  refine sum_congr rfl fun j hj => ?_
  have hj := mem_range.1 hj
  rw [← A_stiff (n + 5) (by omega) i j (by omega), ← B_mass gc n i j hi hj, sys]
  have hj0 : ((j + 1 : ℕ) : ℝ) ≠ 0 := by positivity
  field_simp

/-- The Galerkin equations without right-hand side have no solution but zero. -/
def Regular (q : Quad) (n : ℕ) (kx : ℝ) : Prop := ∀ c : ℕ → ℝ, (∀ i < n + 2, form q n kx c i = 0) → ∀ k < n + 2, c k = 0

theorem sys_det (gc : Bool) (n : ℕ) (kx : ℝ) : (Matrix.of fun i j : Fin (n + 2) => sys gc (n + 5) kx i j).det ≠ 0 ↔ Regular (quadOf gc) n kx := by
  rw [Ne, ← Matrix.exists_mulVec_eq_zero_iff, not_exists]
  constructor
  · intro h c hc k hk
    by_contra hne
    refine h (fun j : Fin (n + 2) => c j * ((j + 1 : ℕ) : ℝ) ^ 2) ⟨fun h0 => hne ?_, ?_⟩
    · have := congrFun h0 ⟨k, hk⟩
      simpa [show ((k : ℝ) + 1) ≠ 0 by positivity] using this
    · funext i
      have := sys_form gc n kx (fun j => c j * ((j + 1 : ℕ) : ℝ) ^ 2) i i.2
      have e : (fun j : ℕ => c j * ((j + 1 : ℕ) : ℝ) ^ 2 / ((j + 1 : ℕ) : ℝ) ^ 2) = c := by
        funext j
        exact mul_div_cancel_right₀ _ (by positivity)
      rw [e, hc i i.2, sum_range] at this
      exact this
  · rintro h v ⟨hv, h0⟩
    refine hv (funext fun k => ?_)
    let w : ℕ → ℝ := fun j => if hj : j < n + 2 then v ⟨j, hj⟩ else 0
    have hw : ∀ j : Fin (n + 2), w j = v j := fun j => dif_pos j.2
    have := h (fun j => w j / ((j + 1 : ℕ) : ℝ) ^ 2) (fun i hi => by
      rw [← sys_form gc n kx w i hi, sum_range]
      have := congrFun h0 ⟨i, hi⟩
      simp only [Matrix.mulVec, dotProduct, Matrix.of_apply] at this
      simpa only [hw, Pi.zero_apply] using this) k k.2
    rw [div_eq_zero_iff] at this
    rw [← hw]
    exact this.resolve_right (by positivity)

theorem solve_form (gc : Bool) (n : ℕ) (kx : ℝ) (h : Regular (quadOf gc) n kx) (fk : ℕ → ℝ) : ∃ uk, solve gc (n + 5) kx fk = some uk ∧
    ∀ c : ℕ → ℝ, (∀ k < n + 2, uk k = c k) ↔ ∀ i < n + 2, form (quadOf gc) n kx c i = fk (i + 1) := by
  refine ⟨fun m => linsolve (n + 2) (sys gc (n + 5) kx) (fun m => fk (m + 1)) m / ((m + 1 : ℕ) : ℝ) ^ 2, ?_, fun c => ?_⟩
  · rw [solve, A, if_pos (lengths _ (by omega)), Option.map_some]
    rfl
  · have := linsolve_spec (n + 2) (sys gc (n + 5) kx) (fun m => fk (m + 1)) ((sys_det gc n kx).2 h) fun j => c j * ((j + 1 : ℕ) : ℝ) ^ 2
    have e : (fun j : ℕ => c j * ((j + 1 : ℕ) : ℝ) ^ 2 / ((j + 1 : ℕ) : ℝ) ^ 2) = c := by
      funext j
      exact mul_div_cancel_right₀ _ (by positivity)
    refine Iff.trans (forall₂_congr fun k _ => ?_) (this.symm.trans (forall₂_congr fun i hi => ?_))
    · exact div_eq_iff (by positivity)
    · rw [sys_form gc n kx _ i hi, e]

theorem regular_finite (q : Quad) (n : ℕ) : {kx | ¬ Regular q n kx}.Finite := by
  obtain ⟨gc, rfl⟩ : ∃ gc, q = quadOf gc := by
    cases q
    · exact ⟨false, rfl⟩
    · exact ⟨true, rfl⟩
  let M : Matrix (Fin (n + 2)) (Fin (n + 2)) ℝ[X] := Matrix.of fun i j =>
    C (diags ((aij (n + 5)).zip (offsets (n + 5))) i j) + X ^ 2 * C (B gc (n + 5) i j)
  have hM : ∀ kx : ℝ, M.det.eval kx = (Matrix.of fun i j : Fin (n + 2) => sys gc (n + 5) kx i j).det := fun kx => by
    rw [← coe_evalRingHom, RingHom.map_det]
    congr 1
    ext i j
    simp [M, sys]
    ring
  have h0 : M.det ≠ 0 := fun h => by
    have h1 := hM 0
    rw [h, eval_zero] at h1
    refine (sys_det gc n 0).2 ?_ h1.symm
    intro c hc
    have := (linsolve_spec (n + 2) (fun i j => stiff (i + 1) (j + 1)) (fun _ => 0) (stiff_det (n + 2)) c)
    have hz := (linsolve_spec (n + 2) (fun i j => stiff (i + 1) (j + 1)) (fun _ => 0) (stiff_det (n + 2)) fun _ => 0).1 (by simp)
    intro k hk
    rw [← this.1 (fun i hi => ?_) k hk, hz k hk]
    have h2 := hc i hi
    rw [form_sum _ _ _ _ _ hi] at h2
    simp only [ne_eq, OfNat.ofNat_ne_zero, not_false_eq_true, zero_pow, zero_mul, add_zero, neg_mul, sum_neg_distrib, neg_eq_zero] at h2
    exact h2
  refine (finite_setOfPred_isRoot h0).subset fun kx h => ?_
  rw [Set.mem_ofPred_eq, IsRoot.def, hM]
  by_contra h1
  exact h ((sys_det gc n kx).1 h1)

/-- C130: where the Galerkin equations have no solution but zero for the right-hand side zero, the program returns the coefficients of the one combination of the basis
functions that satisfies the Galerkin equations; the quadrature is Gauss-Lobatto if the switch `ST.quad == "GC"` is on and Gauss if it is off.  Missing: with the names
as they are meant (`C130_named_false`). -/
theorem C130_galerkin_partial (gc : Bool) (n : ℕ) (kx : ℝ) (q : Quad) (hq : q = if gc then .GL else .GC)
    (h : ∀ c : ℕ → ℝ, (∀ i < n + 3, quadrature q (n + 6)
      ((-derivative^[2] (∑ k ∈ range (n + 3), c k • (T ℝ ((k + 1 : ℕ) : ℤ) - (((k + 1 : ℕ) : ℝ) / ((k + 1 : ℕ) + 2)) ^ 2 • T ℝ ((k + 1 + 2 : ℕ) : ℤ))) +
        kx ^ 2 • ∑ k ∈ range (n + 3), c k • (T ℝ ((k + 1 : ℕ) : ℤ) - (((k + 1 : ℕ) : ℝ) / ((k + 1 : ℕ) + 2)) ^ 2 • T ℝ ((k + 1 + 2 : ℕ) : ℤ))) *
        (T ℝ ((i + 1 : ℕ) : ℤ) - (((i + 1 : ℕ) : ℝ) / ((i + 1 : ℕ) + 2)) ^ 2 • T ℝ ((i + 1 + 2 : ℕ) : ℤ))) = 0) → ∀ k < n + 3, c k = 0)
    (fk : ℕ → ℝ) : ∃ uk, solve gc (n + 6) kx fk = some uk ∧ ∀ c : ℕ → ℝ, (∀ k < n + 3, uk k = c k) ↔ ∀ i < n + 3, quadrature q (n + 6)
      ((-derivative^[2] (∑ k ∈ range (n + 3), c k • (T ℝ ((k + 1 : ℕ) : ℤ) - (((k + 1 : ℕ) : ℝ) / ((k + 1 : ℕ) + 2)) ^ 2 • T ℝ ((k + 1 + 2 : ℕ) : ℤ))) +
        kx ^ 2 • ∑ k ∈ range (n + 3), c k • (T ℝ ((k + 1 : ℕ) : ℤ) - (((k + 1 : ℕ) : ℝ) / ((k + 1 : ℕ) + 2)) ^ 2 • T ℝ ((k + 1 + 2 : ℕ) : ℤ))) *
        (T ℝ ((i + 1 : ℕ) : ℤ) - (((i + 1 : ℕ) : ℝ) / ((i + 1 : ℕ) + 2)) ^ 2 • T ℝ ((i + 1 + 2 : ℕ) : ℤ))) = fk (i + 1) := by
  subst hq
  exact solve_form gc (n + 1) kx h fk

/-- C130: the condition of `C130_galerkin_partial` holds for all wavenumbers except finitely many. -/
theorem C130_regular_partial (q : Quad) (n : ℕ) : {kx : ℝ | ¬ ∀ c : ℕ → ℝ, (∀ i < n + 3, quadrature q (n + 6)
      ((-derivative^[2] (∑ k ∈ range (n + 3), c k • (T ℝ ((k + 1 : ℕ) : ℤ) - (((k + 1 : ℕ) : ℝ) / ((k + 1 : ℕ) + 2)) ^ 2 • T ℝ ((k + 1 + 2 : ℕ) : ℤ))) +
        kx ^ 2 • ∑ k ∈ range (n + 3), c k • (T ℝ ((k + 1 : ℕ) : ℤ) - (((k + 1 : ℕ) : ℝ) / ((k + 1 : ℕ) + 2)) ^ 2 • T ℝ ((k + 1 + 2 : ℕ) : ℤ))) *
        (T ℝ ((i + 1 : ℕ) : ℤ) - (((i + 1 : ℕ) : ℝ) / ((i + 1 : ℕ) + 2)) ^ 2 • T ℝ ((i + 1 + 2 : ℕ) : ℤ))) = 0) → ∀ k < n + 3, c k = 0}.Finite :=
  regular_finite q (n + 1)

theorem form_last (n : ℕ) (kx : ℝ) (hk : kx ≠ 0) : form .GC n kx (fun k => if k = n + 1 then 1 else 0) (n + 1) ≠
    form .GL n kx (fun k => if k = n + 1 then 1 else 0) (n + 1) := by
  have hr : ratio (n + 1 + 1) ≠ 0 := by rw [ratio]; positivity
  rw [form_sum _ _ _ _ _ (by omega), form_sum _ _ _ _ _ (by omega)]
  simp only [mul_ite, mul_one, mul_zero, sum_ite_eq', mem_range, show n + 1 < n + 2 by omega, if_true]
  rw [quad_mass _ n _ _ (by omega) (by omega), quad_mass _ n _ _ (by omega) (by omega), if_pos rfl, if_pos rfl]
  simp only [ck]
  have := pi_ne_zero
  norm_num
  refine ⟨⟨by decide, fun h => pow_ne_zero 2 hr (by linarith)⟩, hk⟩

/-- C130: with the switch `ST.quad == "GC"` on, and any wavenumber but zero for which the program has a solution, there are right-hand sides for which the result does
not satisfy the Galerkin equations with Gauss quadrature. -/
theorem C130_named_false (n : ℕ) (kx : ℝ) (hk : kx ≠ 0) (h : Regular .GL (n + 1) kx) : ∃ fk uk, solve true (n + 6) kx fk = some uk ∧
    ¬ ∀ i < n + 3, quadrature .GC (n + 6)
      ((-derivative^[2] (∑ k ∈ range (n + 3), uk k • (T ℝ ((k + 1 : ℕ) : ℤ) - (((k + 1 : ℕ) : ℝ) / ((k + 1 : ℕ) + 2)) ^ 2 • T ℝ ((k + 1 + 2 : ℕ) : ℤ))) +
        kx ^ 2 • ∑ k ∈ range (n + 3), uk k • (T ℝ ((k + 1 : ℕ) : ℤ) - (((k + 1 : ℕ) : ℝ) / ((k + 1 : ℕ) + 2)) ^ 2 • T ℝ ((k + 1 + 2 : ℕ) : ℤ))) *
        (T ℝ ((i + 1 : ℕ) : ℤ) - (((i + 1 : ℕ) : ℝ) / ((i + 1 : ℕ) + 2)) ^ 2 • T ℝ ((i + 1 + 2 : ℕ) : ℤ))) = fk (i + 1) := by
  let e : ℕ → ℝ := fun k => if k = n + 1 + 1 then 1 else 0
  obtain ⟨uk, h1, h2⟩ := solve_form true (n + 1) kx h fun i => form .GL (n + 1) kx e (i - 1)
  have h3 := (h2 e).2 fun i _ => rfl
  refine ⟨_, uk, h1, fun h4 => form_last (n + 1) kx hk ?_⟩
  have h5 : form .GC (n + 1) kx uk (n + 1 + 1) = form .GL (n + 1) kx e (n + 1 + 1) := h4 (n + 2) (by omega)
  have h6 : form .GC (n + 1) kx uk (n + 1 + 1) = form .GC (n + 1) kx e (n + 1 + 1) := by
    rw [form, form, shen_congr (n + 1) uk e h3]
  exact h6.symm.trans h5

/-- C130: for a polynomial `p` of the space (flat at both ends, weighted mean zero), if the right-hand side is made from `-p'' + kx² p` with the quadrature that belongs
to the matrix, the result are the coefficients of `p`.  Missing: with the names as they are meant. -/
theorem C130_exact_partial (gc : Bool) (n : ℕ) (kx : ℝ) (q : Quad) (hq : q = if gc then .GL else .GC) (h : Regular q (n + 1) kx) (p : ℝ[X])
    (hp : Flat (n + 6) p) (h0 : mean p = 0) (fk : ℕ → ℝ)
    (hf : ∀ i < n + 3, fk (i + 1) = quadrature q (n + 6) ((-derivative^[2] p + kx ^ 2 • p) *
      (T ℝ ((i + 1 : ℕ) : ℤ) - (((i + 1 : ℕ) : ℝ) / ((i + 1 : ℕ) + 2)) ^ 2 • T ℝ ((i + 1 + 2 : ℕ) : ℤ)))) :
    ∃ uk, solve gc (n + 6) kx fk = some uk ∧
      ∑ k ∈ range (n + 3), uk k • (T ℝ ((k + 1 : ℕ) : ℤ) - (((k + 1 : ℕ) : ℝ) / ((k + 1 : ℕ) + 2)) ^ 2 • T ℝ ((k + 1 + 2 : ℕ) : ℤ)) = p := by
  subst hq
  obtain ⟨c, rfl⟩ := exists_shen (n + 1) p hp h0
  obtain ⟨uk, h1, h2⟩ := solve_form gc (n + 1) kx h fk
  exact ⟨uk, h1, shen_congr (n + 1) uk c ((h2 c).2 fun i hi => (hf i hi).symm)⟩

/-- The case of the script, `N = 10`: nonzero wavenumbers for which the program has a solution. -/
example : ∃ kx : ℝ, kx ≠ 0 ∧ ∃ fk uk, solve true 10 kx fk = some uk ∧ ∀ i < 7, form .GL 5 kx uk i = fk (i + 1) := by
  obtain ⟨kx, h⟩ := ((regular_finite .GL 5).union (Set.finite_singleton (0 : ℝ))).infinite_compl.nonempty
  simp only [Set.mem_compl_iff, Set.mem_union, Set.mem_ofPred_eq, Set.mem_singleton_iff, not_or, not_not] at h
  obtain ⟨uk, h1, h2⟩ := solve_form true 5 kx h.1 fun _ => 1
  exact ⟨kx, h.2, _, uk, h1, (h2 uk).1 fun _ _ => rfl⟩

end SpectralDNS.Sandbox.Neumann.Helm

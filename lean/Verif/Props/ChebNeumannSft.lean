import Verif.Model.ChebNeumannSft
import Verif.Props.ChebPoissonNeumann

/-!
# C129: the sparse branch of sandbox/cheb_poisson_neumann_sft.py

It gives the numbers of the banded branch if the number of points is even, and fails if it is odd: the loop that makes the diagonals ends one step later than the list of
offsets.
-/

namespace SpectralDNS.Sandbox.Neumann.Sft

open Polynomial Polynomial.Chebyshev Real Finset

theorem diagLoop_offset (g : ℕ → ℕ → ℝ) (L : List ℕ) (A : ℕ → ℕ → ℝ) (i j : ℕ) :
    (L.map fun x => (g x, x)).foldl (fun A (d : (ℕ → ℝ) × ℕ) i j => if j = i + d.2 then d.1 i else A i j) A i j =
      if ∃ x ∈ L, j = i + x then g (j - i) i else A i j := by
  induction L generalizing A with
  | nil => simp
  | cons a L ih =>
    rw [List.map_cons, List.foldl_cons, ih]
    by_cases h : ∃ x ∈ L, j = i + x
    · rw [if_pos h, if_pos]
      obtain ⟨x, hx, h⟩ := h
      exact ⟨x, List.mem_cons_of_mem _ hx, h⟩
    · rw [if_neg h]
      by_cases h2 : j = i + a
      · rw [if_pos h2, if_pos ⟨a, List.mem_cons_self, h2⟩, show j - i = a by omega]
      · rw [if_neg h2, if_neg]
        rintro ⟨x, hx, hr⟩
        rcases List.mem_cons.1 hx with rfl | hx
        · exact h2 hr
        · exact h ⟨x, hx, hr⟩

theorem lengths (N : ℕ) (hN : 4 ≤ N) : (aij N).length = (offsets N).length ↔ N % 2 = 0 := by
  simp only [aij, offsets, List.length_append, List.length_map, List.length_range', List.length_cons, List.length_nil]
  omega

theorem sparse_stiff (N : ℕ) (hN : 4 ≤ N) (he : N % 2 = 0) (i j : ℕ) (hj : j < N - 3) : diags ((aij N).zip (offsets N)) i j = stiff (i + 1) (j + 1) := by
  have hz : ∀ (g : ℕ → ℕ → ℝ) (L : List ℕ), (L.map g).zip L = L.map fun x => (g x, x) := fun g L => by
    induction L with
    | nil => rfl
    | cons a L ih => rw [List.map_cons, List.zip_cons_cons, ih, List.map_cons]
  have hl : (N - 2) / 2 = (N - 4) / 2 + 1 := by omega
  have hl2 : (N - 3) / 2 = (N - 4) / 2 := by omega
  simp only [aij, offsets, hl, hl2, List.range'_succ, List.cons_append, List.nil_append, List.zip_cons_cons, diags, List.foldl_cons, hz, zero_add]
  rw [diagLoop_offset, stiff]
  by_cases hd : i = j
  · subst hd
    rw [if_neg, if_pos (by omega), if_pos rfl]
    rintro ⟨l, hl, h1⟩
    have h3 := evens_le N l hl
    have := (mem_evens N l h3).1 hl
    omega
  · rw [if_neg (by omega : ¬ i + 1 = j + 1)]
    by_cases h2 : i + 1 < j + 1 ∧ (j + 1 - (i + 1)) % 2 = 0
    · rw [if_pos ⟨j - i, (mem_evens N _ (by omega)).2 (by omega), by omega⟩, if_pos h2]
      have : ((j - i : ℕ) : ℝ) = j - i := Nat.cast_sub (by omega)
      rw [this]
      push_cast
      ring
    · rw [if_neg, if_neg (by omega), if_neg h2]
      rintro ⟨l, hl, h1⟩
      have h3 := evens_le N l hl
      have := (mem_evens N l h3).1 hl
      omega

/-- C129: with an odd number of points the sparse branch fails, whatever the right-hand side. -/
theorem C129_odd_false (N : ℕ) (hN : 4 ≤ N) (ho : N % 2 = 1) (f : ℕ → ℝ) : solve_neumann false N f = none := by
  have : ¬ (aij N).length = (offsets N).length := fun h => by
    have := (lengths N hN).1 h
    omega
  simp [solve_neumann, A, this]

/-- C129: with an even number of points both branches return the same numbers.  Missing: odd numbers of points (`C129_odd_false`). -/
theorem C129_even_partial (N : ℕ) (hN : 4 ≤ N) (he : N % 2 = 0) (f : ℕ → ℝ) : solve_neumann false N f = solve_neumann true N f := by
  simp only [solve_neumann, A, if_pos ((lengths N hN).2 he), Option.map_some, if_true, Bool.false_eq_true, if_false]
  rw [solve_eq N hN, linsolve_congr _ _ _ _ fun i _ j hj => sparse_stiff N hN he i j hj]

/-- C129: they are the coefficients of the one function, flat at both ends, whose second derivative has the given inner products with the basis, for Gauss-Lobatto
quadrature.  Missing: odd numbers of points with the sparse branch. -/
theorem C129_galerkin_partial (banded : Bool) (n : ℕ) (h : banded = true ∨ (n + 5) % 2 = 0) (f : ℕ → ℝ) : ∃ uk, solve_neumann banded (n + 5) f = some uk ∧
    ∀ c : ℕ → ℝ, (∀ k < n + 2, uk k = c k) ↔ ∀ i < n + 2, Channel.quadrature .GL (n + 5)
      (derivative^[2] (∑ k ∈ range (n + 2), c k • (T ℝ ((k + 1 : ℕ) : ℤ) - (((k + 1 : ℕ) : ℝ) / ((k + 1 : ℕ) + 2)) ^ 2 • T ℝ ((k + 1 + 2 : ℕ) : ℤ))) *
        (T ℝ ((i + 1 : ℕ) : ℤ) - (((i + 1 : ℕ) : ℝ) / ((i + 1 : ℕ) + 2)) ^ 2 • T ℝ ((i + 1 + 2 : ℕ) : ℤ))) = f i := by
  have e : solve_neumann banded (n + 5) f = some (solveNeumann (n + 5) f) := by
    rcases Bool.eq_false_or_eq_true banded with rfl | rfl
    · rfl
    · rw [C129_even_partial _ (by omega) (h.resolve_left (by simp))]
      rfl
  exact ⟨_, e, fun c => solve_spec n f c⟩

/-- The number of points of the script, 40, and the next one. -/
example (f : ℕ → ℝ) : (∃ uk, solve_neumann false 40 f = some uk) ∧ solve_neumann false 41 f = none :=
  ⟨by obtain ⟨uk, h, -⟩ := C129_galerkin_partial false 35 (Or.inr rfl) f; exact ⟨uk, h⟩, C129_odd_false 41 (by omega) rfl f⟩

end SpectralDNS.Sandbox.Neumann.Sft

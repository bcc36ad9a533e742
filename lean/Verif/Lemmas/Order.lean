import Verif.Spec.RootedTree
import Verif.Model.Integrators
import Verif.Lemmas.Integrators
import Mathlib.Algebra.Order.Field.Rat
import Mathlib.Data.Rat.Cast.CharZero
import Mathlib.Algebra.BigOperators.Ring.Finset
import Mathlib.Algebra.Module.LinearMap.End

/-! Order conditions of the BS5 tableau by exhaustive enumeration of trees, and consequences. -/

namespace SpectralDNS
open Spec

/-- All trees of order at most `p` and depth of construction at most `n`. -/
def treesUpTo (p : ℕ) : ℕ → List Tree
  | 0 => []
  | n + 1 => (Tree.leaf :: (treesUpTo p n).flatMap fun t => (treesUpTo p n).map (Tree.graft t)).filter
      (fun t => t.order ≤ p)

theorem Tree.order_pos (t : Tree) : 0 < t.order := by
  induction t with
  | leaf => exact Nat.one_pos
  | graft t s iht ihs => simp only [Tree.order]; omega

theorem mem_treesUpTo (p n : ℕ) (t : Tree) : t.order ≤ n → t.order ≤ p → t ∈ treesUpTo p n := by
  induction n generalizing t with
  | zero => intro h _; have := Tree.order_pos t; omega
  | succ n ih =>
    intro h hp
    cases t with
    | leaf =>
      simp only [treesUpTo, List.mem_filter, List.mem_cons, true_or, true_and, decide_eq_true_eq]
      exact hp
    | graft t s =>
      have h1 := Tree.order_pos t
      have h2 := Tree.order_pos s
      simp only [Tree.order] at h hp
      have mt := ih t (by omega) (by omega)
      have ms := ih s (by omega) (by omega)
      simp only [treesUpTo, List.mem_filter, List.mem_cons, List.mem_flatMap, List.mem_map, decide_eq_true_eq,
        reduceCtorEq, false_or]
      exact ⟨⟨t, mt, s, ms, rfl⟩, hp⟩

/-- Rational version of the tableau. -/
def bs5AQ : ℕ → ℕ → ℚ := fun i j => (bs5A.getD i []).getD j 0
/-- Rational version of the tableau. -/
def bs5bQ : ℕ → ℚ := fun j => bs5b.getD j 0
/-- Rational version of the tableau. -/
def bs5bhatQ : ℕ → ℚ := fun j => bs5bhat.getD j 0

theorem elem_cast (s : ℕ) (a : ℕ → ℕ → ℚ) (t : Tree) (i : ℕ) :
    t.elem s (fun i j => ((a i j : ℚ) : ℝ)) i = ((t.elem s a i : ℚ) : ℝ) := by
  induction t generalizing i with
  | leaf => simp [Tree.elem]
  | graft t c iht ihc => simp only [Tree.elem, iht, ihc]; push_cast; rfl

theorem weight_cast (s : ℕ) (a : ℕ → ℕ → ℚ) (b : ℕ → ℚ) (t : Tree) :
    t.weight s (fun i j => ((a i j : ℚ) : ℝ)) (fun i => ((b i : ℚ) : ℝ)) = ((t.weight s a b : ℚ) : ℝ) := by
  simp only [Tree.weight, elem_cast]; push_cast; rfl

theorem hasOrder_cast (s : ℕ) (a : ℕ → ℕ → ℚ) (b : ℕ → ℚ) (p : ℕ) (h : HasOrder s a b p) :
    HasOrder s (fun i j => ((a i j : ℚ) : ℝ)) (fun i => ((b i : ℚ) : ℝ)) p := by
  intro t ht
  rw [weight_cast, h t ht]
  push_cast
  rfl

theorem hasOrder_of_all (s : ℕ) (a : ℕ → ℕ → ℚ) (b : ℕ → ℚ) (p : ℕ)
    (h : ∀ t ∈ treesUpTo p p, t.weight s a b = 1 / (t.dens : ℚ)) : HasOrder s a b p :=
  fun t ht => h t (mem_treesUpTo p p t ht ht)

set_option maxRecDepth 10000 in
theorem bs5_order5Q : HasOrder 8 bs5AQ bs5bQ 5 := by
  apply hasOrder_of_all
  decide +kernel

set_option maxRecDepth 10000 in
theorem bs5hat_order4Q : HasOrder 8 bs5AQ bs5bhatQ 4 := by
  apply hasOrder_of_all
  decide +kernel

/-! ### Linear right-hand sides -/

variable {V : Type*} [AddCommGroup V] [Module ℝ V]

/-- Tree with `m+1` vertices in a row. -/
def tall : ℕ → Tree
  | 0 => .leaf
  | m + 1 => .graft .leaf (tall m)

theorem tall_order (m : ℕ) : (tall m).order = m + 1 := by
  induction m with
  | zero => rfl
  | succ m ih => simp only [tall, Tree.order, ih]; omega

theorem tall_dens (m : ℕ) : (tall m).dens = (m + 1).factorial := by
  induction m with
  | zero => rfl
  | succ m ih =>
    have : (tall (m + 1)).dens = ((1 + (tall m).order) * (1 * (tall m).dens)) := rfl
    rw [this, ih, tall_order, Nat.factorial_succ (m + 1)]
    ring

/-- Explicit: `a i j = 0` for `j ≥ i`. -/
def Explicit (s : ℕ) (a : ℕ → ℕ → ℝ) : Prop := ∀ i < s, ∀ j < s, i ≤ j → a i j = 0

theorem tall_elem_zero (s : ℕ) (a : ℕ → ℕ → ℝ) (ha : Explicit s a) (m i : ℕ) (hi : i < s) (h : i < m) :
    (tall m).elem s a i = 0 := by
  induction m generalizing i with
  | zero => omega
  | succ m ih =>
    simp only [tall, Tree.elem, one_mul]
    refine Finset.sum_eq_zero fun j hj => ?_
    have hj := Finset.mem_range.1 hj
    by_cases hij : i ≤ j
    · rw [ha i hi j hj hij, zero_mul]
    · rw [ih j hj (by omega), mul_zero]

/-- Stages of an explicit method for a linear right-hand side. -/
theorem stages_linear (s : ℕ) (a : ℕ → ℕ → ℝ) (ha : Explicit s a) (L : Module.End ℝ V) (dt : ℝ) (u : V) (i : ℕ)
    (hi : i < s) : Spec.stages a (fun u => L u) dt u i =
      ∑ m ∈ Finset.range s, (dt ^ m * (tall m).elem s a i) • (L ^ (m + 1)) u := by
  induction i using Nat.strong_induction_on with
  | _ i ih =>
    rw [stages_eq]
    have h1 : ∀ j ∈ Finset.range i, (dt * a i j) • Spec.stages a (fun u => L u) dt u j =
        ∑ m ∈ Finset.range s, (dt ^ (m + 1) * (a i j * (tall m).elem s a j)) • (L ^ (m + 1)) u := by
      intro j hj
      have hj := Finset.mem_range.1 hj
      rw [ih j hj (by omega), Finset.smul_sum]
      refine Finset.sum_congr rfl fun m _ => ?_
      rw [smul_smul]; congr 1; ring
    rw [Finset.sum_congr rfl h1, Finset.sum_comm]
    have h2 : ∀ m ∈ Finset.range s, ∑ j ∈ Finset.range i, (dt ^ (m + 1) * (a i j * (tall m).elem s a j)) • (L ^ (m + 1)) u =
        (dt ^ (m + 1) * (tall (m + 1)).elem s a i) • (L ^ (m + 1)) u := by
      intro m _
      rw [← Finset.sum_smul, ← Finset.mul_sum]
      congr 2
      simp only [tall, Tree.elem, one_mul]
      have hsub : Finset.range i ⊆ Finset.range s := Finset.range_subset_range.2 hi.le
      refine Finset.sum_subset hsub fun j hj hji => ?_
      rw [ha i hi j (Finset.mem_range.1 hj) (by simpa using hji), zero_mul]
    rw [Finset.sum_congr rfl h2]
    obtain ⟨n, rfl⟩ : ∃ n, s = n + 1 := ⟨s - 1, by omega⟩
    rw [Finset.sum_range_succ (n := n), tall_elem_zero (n + 1) a ha (n + 1) i hi hi]
    simp only [mul_zero, zero_smul, add_zero, map_add, map_sum, map_smul]
    rw [Finset.sum_range_succ']
    have h0 : (tall 0).elem (n + 1) a i = 1 := rfl
    rw [h0, add_comm]
    simp only [pow_succ' L, Module.End.mul_apply, pow_zero, one_smul, mul_one]

/-- One step of an explicit method of order `p` for a linear right-hand side: Taylor polynomial of the exponential up
to degree `p`, plus terms of higher degree. -/
theorem rkNew_linear (s : ℕ) (a : ℕ → ℕ → ℝ) (b : ℕ → ℝ) (ha : Explicit s a) (L : Module.End ℝ V) (dt : ℝ) (u : V) :
    Spec.rkNew s a b (fun u => L u) dt u =
      u + ∑ m ∈ Finset.range s, (dt ^ (m + 1) * (tall m).weight s a b) • (L ^ (m + 1)) u := by
  unfold Spec.rkNew
  congr 1
  have h1 : ∀ j ∈ Finset.range s, (dt * b j) • Spec.stages a (fun u => L u) dt u j =
      ∑ m ∈ Finset.range s, (dt ^ (m + 1) * (b j * (tall m).elem s a j)) • (L ^ (m + 1)) u := by
    intro j hj
    rw [stages_linear s a ha L dt u j (Finset.mem_range.1 hj), Finset.smul_sum]
    refine Finset.sum_congr rfl fun m _ => ?_
    rw [smul_smul]; congr 1; ring
  rw [Finset.sum_congr rfl h1, Finset.sum_comm]
  refine Finset.sum_congr rfl fun m _ => ?_
  rw [← Finset.sum_smul, ← Finset.mul_sum]
  rfl

theorem bs5_explicit : Explicit 8 bs5.A := by
  have h : ∀ i < 8, ∀ j < 8, i ≤ j → bs5AQ i j = 0 := by decide +kernel
  intro i hi j hj hij
  show ((bs5AQ i j : ℚ) : ℝ) = 0
  rw [h i hi j hj hij, Rat.cast_zero]

end SpectralDNS

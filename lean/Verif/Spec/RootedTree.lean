import Mathlib.Algebra.BigOperators.Group.Finset.Basic
import Mathlib.Algebra.Field.Basic

/-!
# Rooted trees and Runge-Kutta order conditions (specification)

Hairer, Nørsett, Wanner I, section II.2: a method has order `p` iff `Σ_i b_i Φ_i(τ) = 1/γ(τ)` for every rooted tree
`τ` with at most `p` vertices.
-/

namespace SpectralDNS.Spec

/-- Rooted trees built from the single vertex by grafting: `graft t s` attaches `s` as one more child of the root of
`t`.  Every rooted tree arises this way (children listed in some order). -/
inductive Tree where
  | leaf
  | graft (t s : Tree)

namespace Tree

/-- Number of vertices. -/
def order : Tree → ℕ
  | leaf => 1
  | graft t s => t.order + s.order

/-- Density `γ`: the product over all vertices of the order of the subtree rooted there.  First component: `γ(τ)`,
second: the product without the factor of the root. -/
def densAux : Tree → ℕ × ℕ
  | leaf => (1, 1)
  | graft t s => let p := t.densAux.2 * s.densAux.1; ((t.order + s.order) * p, p)

/-- Density `γ(τ)`. -/
def dens (t : Tree) : ℕ := t.densAux.1

variable {K : Type*} [Field K]

/-- Elementary weight `Φ_i(τ)` of stage `i` of a method with `s` stages. -/
def elem (s : ℕ) (a : ℕ → ℕ → K) : Tree → ℕ → K
  | leaf, _ => 1
  | graft t c, i => t.elem s a i * ∑ j ∈ Finset.range s, a i j * c.elem s a j

/-- Elementary weight of the solution. -/
def weight (s : ℕ) (a : ℕ → ℕ → K) (b : ℕ → K) (t : Tree) : K := ∑ i ∈ Finset.range s, b i * t.elem s a i

end Tree

variable {K : Type*} [Field K]

/-- The method `(a, b)` satisfies all order conditions up to order `p`. -/
def HasOrder (s : ℕ) (a : ℕ → ℕ → K) (b : ℕ → K) (p : ℕ) : Prop :=
  ∀ t : Tree, t.order ≤ p → t.weight s a b = 1 / (t.dens : K)

end SpectralDNS.Spec

import Mathlib.Analysis.Calculus.Deriv.Basic
import Mathlib.Topology.Order.Basic

/-!
# Start-up of laminar flow between two walls

The velocity `u t x` along the walls at `x = -1` and `x = 1` under a constant driving force `2/Re`, from rest.
-/

namespace SpectralDNS.Spec

open Set

/-- `u` is a classical solution: continuous up to the walls and the start, at rest at the start and at the walls, and
`u_t = nu u_xx + 2/Re` in between. -/
structure StartUp (nu Re : ℝ) (u : ℝ → ℝ → ℝ) : Prop where
  cont : ContinuousOn (fun p : ℝ × ℝ => u p.1 p.2) (Ici 0 ×ˢ Icc (-1) 1)
  rest : ∀ x ∈ Icc (-1 : ℝ) 1, u 0 x = 0
  walls : ∀ t, 0 ≤ t → u t 1 = 0 ∧ u t (-1) = 0
  eqn : ∃ ux uxx : ℝ → ℝ → ℝ, ∀ t, 0 < t → ∀ x ∈ Ioo (-1 : ℝ) 1,
    HasDerivAt (u t) (ux t x) x ∧ HasDerivAt (ux t) (uxx t x) x ∧ HasDerivAt (fun s => u s x) (nu * uxx t x + 2 / Re) t

end SpectralDNS.Spec

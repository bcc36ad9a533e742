import Mathlib.Analysis.Calculus.Deriv.Basic
import Mathlib.Algebra.BigOperators.Group.List.Basic

/-!
# Solutions of autonomous differential equations, and what it means for computed states to follow one
-/

namespace SpectralDNS

variable {E : Type*} [NormedAddCommGroup E] [NormedSpace ℝ E]

/-- `y` solves `y' = f y` on `[0, T]`. -/
def SolvesOn (f : E → E) (T : ℝ) (y : ℝ → E) : Prop :=
  ∀ t ∈ Set.Icc 0 T, HasDerivWithinAt y (f (y t)) (Set.Icc 0 T) t

/-- `y` solves `y' = f y` for all times `t >= 0`. -/
def Solves (f : E → E) (y : ℝ → E) : Prop := ∀ t, 0 ≤ t → HasDerivWithinAt y (f (y t)) (Set.Ici 0) t

/-- Computed states `(u, next dt, dt taken)`, the first of them computed from time `t`: after every step the state differs by at most `e`
from `y` at the time reached. -/
def Spec.Within (y : ℝ → E) (e : ℝ) : ℝ → List (E × ℝ × ℝ) → Prop
  | _, [] => True
  | t, o :: outs => ‖o.1 - y (t + o.2.2)‖ ≤ e ∧ Within y e (t + o.2.2) outs

end SpectralDNS

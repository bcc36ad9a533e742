import Mathlib.Data.Real.Basic
import Mathlib.Algebra.Ring.Int.Units
import Mathlib.Algebra.Group.Units.Basic
import Mathlib.Logic.Equiv.Defs

/-! # Specification: the motions of a periodic box (reflections and permutations of the axes, translations) and their action on fields -/

namespace SpectralDNS.Spec

variable {d : ℕ}

/-- The point to which `x` is moved: coordinate `i` becomes coordinate `π i` with sign `s i`, then the point is displaced by `h`. -/
def move (π : Equiv.Perm (Fin d)) (s : Fin d → ℤˣ) (h x : Fin d → ℝ) : Fin d → ℝ :=
  fun j => ((s (π.symm j) : ℤ) : ℝ) * x (π.symm j) + h j

/-- The scalar field `f'` is `f` seen after the motion, multiplied by the sign `z`. -/
def MovedScalar (π : Equiv.Perm (Fin d)) (s : Fin d → ℤˣ) (h : Fin d → ℝ) (z : ℤˣ) (f f' : (Fin d → ℝ) → ℝ) : Prop :=
  ∀ x, f' x = ((z : ℤ) : ℝ) * f (move π s h x)

/-- The vector field `f'` is `f` seen after the motion: also the components are permuted and reflected.  The sign `z` is 1 for velocities. -/
def Moved (π : Equiv.Perm (Fin d)) (s : Fin d → ℤˣ) (h : Fin d → ℝ) (z : ℤˣ) (f f' : Fin d → (Fin d → ℝ) → ℝ) : Prop :=
  ∀ i x, f' i x = ((z : ℤ) : ℝ) * (((s i : ℤ) : ℝ) * f (π i) (move π s h x))

end SpectralDNS.Spec

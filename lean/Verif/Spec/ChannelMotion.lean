import Verif.Spec.Symmetry
import Verif.Spec.ChannelField
import Mathlib.Order.Interval.Set.Defs

/-! # Specification: the motions of a channel -/

namespace SpectralDNS.Spec.Field

/-- The scalar field `f'` is `f` seen after the motion, multiplied by the sign `e`: the walls are exchanged if `r = -1`, the directions along the walls
are reflected by `s`, then the flow is displaced along the walls by `h`. -/
def MovedBetween (r : ℤˣ) (s : Fin 2 → ℤˣ) (h : Fin 2 → ℝ) (e : ℤˣ) (f f' : Scalar) : Prop :=
  ∀ x ∈ Set.Icc (-1 : ℝ) 1, ∀ y z, f' x y z = ((e : ℤ) : ℝ) * f (((r : ℤ) : ℝ) * x) (((s 0 : ℤ) : ℝ) * y + h 0) (((s 1 : ℤ) : ℝ) * z + h 1)

/-- The velocity `(u', v', w')` is `(u, v, w)` seen after the motion: each component changes sign with its direction. -/
def MovedFlow (r : ℤˣ) (s : Fin 2 → ℤˣ) (h : Fin 2 → ℝ) (u v w u' v' w' : Scalar) : Prop :=
  MovedBetween r s h r u u' ∧ MovedBetween r s h (s 0) v v' ∧ MovedBetween r s h (s 1) w w'

/-- The temperature `T'` is `T` seen after the motion; with the walls exchanged, hot is cold: a temperature between the wall temperatures `bc` is replaced by
the one that differs as much from the other wall temperature. -/
def MovedTemperature (bc : ℝ × ℝ) (r : ℤˣ) (s : Fin 2 → ℤˣ) (h : Fin 2 → ℝ) (T T' : Scalar) : Prop :=
  ∀ x ∈ Set.Icc (-1 : ℝ) 1, ∀ y z, T' x y z = if r = 1 then T x (((s 0 : ℤ) : ℝ) * y + h 0) (((s 1 : ℤ) : ℝ) * z + h 1)
    else bc.1 + bc.2 - T (-x) (((s 0 : ℤ) : ℝ) * y + h 0) (((s 1 : ℤ) : ℝ) * z + h 1)

end SpectralDNS.Spec.Field

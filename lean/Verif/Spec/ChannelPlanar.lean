import Verif.Spec.ChannelMotion

/-! # Specification: flows in a channel which do not vary in one of the directions along the walls -/

namespace SpectralDNS.Spec.Field

/-- The field does not vary in the direction `d` along the walls: `0` is the direction of `y`, `1` that of `z`. -/
def Along (d : Fin 2) (f : Scalar) : Prop :=
  ∀ x ∈ Set.Icc (-1 : ℝ) 1, ∀ y z a, f x (y + if d = 0 then a else 0) (z + if d = 1 then a else 0) = f x y z

/-- The field is zero everywhere in the channel. -/
def Vanishes (f : Scalar) : Prop := ∀ x ∈ Set.Icc (-1 : ℝ) 1, ∀ y z, f x y z = 0

/-- The velocity `(u, v, w)` does not vary in the direction `d`. -/
def AlongFlow (d : Fin 2) (u v w : Scalar) : Prop := Along d u ∧ Along d v ∧ Along d w

/-- The flow is two-dimensional: the velocity does not vary in the direction `d` and has no component in that direction. -/
def PlanarFlow (d : Fin 2) (u v w : Scalar) : Prop := AlongFlow d u v w ∧ Vanishes (if d = 0 then v else w)

end SpectralDNS.Spec.Field

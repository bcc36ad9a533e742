import Verif.Spec.ChannelField
import Mathlib.MeasureTheory.Integral.IntervalIntegral.Basic

/-!
# The flux through the channel (specification)
-/

namespace SpectralDNS.Spec.Field

/-- The integral of a velocity component over the channel: `-1 < x < 1` between the walls, one period `L 0`, `L 1` along them. -/
noncomputable def flux (L : Fin 2 → ℝ) (v : Scalar) : ℝ :=
  ∫ x in (-1 : ℝ)..1, ∫ y in (0 : ℝ)..L 0, ∫ z in (0 : ℝ)..L 1, v x y z

/-- The field does not depend on `y`. -/
def ConstY (v : Scalar) : Prop := ∀ x y y' z, v x y z = v x y' z

/-- The field does not depend on `z`. -/
def ConstZ (v : Scalar) : Prop := ∀ x y z z', v x y z = v x y z'

end SpectralDNS.Spec.Field

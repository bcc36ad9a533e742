import Mathlib.Analysis.SpecialFunctions.Trigonometric.Basic

/-!
# The double shear layer (specification)
-/

namespace SpectralDNS.Spec

/-- Two layers of opposite sense at `y = pi/2` and `3 pi/2`, of thickness `delta`, between the velocities `U1` (outside) and `U2` (between). -/
noncomputable def doubleLayer (U1 U2 delta y : ℝ) : ℝ :=
  let Um := (U1 - U2) / 2
  if y < Real.pi / 2 then U1 - Um * Real.exp (-(Real.pi / 2 - y) / delta)
  else if y < Real.pi then U2 + Um * Real.exp (-(y - Real.pi / 2) / delta)
  else if y < 3 * Real.pi / 2 then U2 + Um * Real.exp (-(3 * Real.pi / 2 - y) / delta)
  else U1 - Um * Real.exp (-(y - 3 * Real.pi / 2) / delta)

end SpectralDNS.Spec

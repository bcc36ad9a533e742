import Mathlib.Analysis.SpecialFunctions.Pow.Real

/-!
# The float values that can reach the step-size controller

`integrators.py` computes with IEEE doubles.  Rounding is not modelled, but the special values `inf` and `nan` are,
because the controller behaves differently on them than ordinary real arithmetic (`1/0` etc.) would.
-/

namespace SpectralDNS

/-- A non-negative-or-special double: a finite value (rounding ignored), `+inf`, or `nan`.
`-inf` cannot occur in the modelled lines (norms and their positive powers only). -/
inductive PyF where
  | fin (x : ℝ)
  | inf
  | nan

namespace PyF

/-- Python/IEEE `a > b`; every comparison with `nan` is false. -/
def Gt : PyF → PyF → Prop
  | fin a, fin b => a > b
  | inf, fin _ => True
  | _, _ => False

open Classical in
/-- Python `max(a, b)` (CPython keeps the first argument unless the second one compares greater). -/
noncomputable def pyMax (a b : PyF) : PyF :=
  if Gt b a then b else a

open Classical in
/-- Python `min(a, b)` (CPython keeps the first argument unless the second one compares less). -/
noncomputable def pyMin (a b : PyF) : PyF :=
  if Gt a b then b else a

open Classical in
/-- `1/est` for a non-negative `np.float64` (integrators.py:118): `1/0.0` is `inf` (numpy warns, does not raise),
`1/inf = 0`, `1/nan = nan`. -/
noncomputable def recip : PyF → PyF
  | fin x => if x = 0 then inf else fin (1 / x)
  | inf => fin 0
  | nan => nan

/-- `pow(x, e)` for a positive finite exponent (integrators.py:118). -/
noncomputable def pow (x : PyF) (e : ℝ) : PyF :=
  match x with
  | fin x => fin (x ^ e)
  | inf => inf
  | nan => nan

/-- `c*x` for a positive finite `c` (integrators.py:118). -/
noncomputable def scale (c : ℝ) : PyF → PyF
  | fin x => fin (c * x)
  | inf => inf
  | nan => nan

/-- Real value of a finite float; the junk value for `inf`/`nan` is never used, see
`SpectralDNS.stepFactor_finite` in `Lemmas/Controller.lean`. -/
def toReal : PyF → ℝ
  | fin x => x
  | _ => 0

end PyF
end SpectralDNS

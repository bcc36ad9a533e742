import Verif.Model.Short
import Verif.Model.Demos

/-!
# Model of demo/NS_shenfun.py

The stand-alone solver written with shenfun's transforms, for any grid, viscosity, time step and end time (the script has `64^3`,
`0.000625`, `0.01` and `0.1`).  Numbers are real, so `t` is exactly the number of steps times `dt`.  One rank; the timing and printing
(lines 66, 80-82) are left out.
-/

namespace SpectralDNS.NSShenfun

open Complex Periodic Demos

variable (N : Fin 3 → ℕ)

/-- demo/NS_shenfun.py:30: `T.local_wavenumbers(True, True, True)`, whose third argument asks for zero instead of the Nyquist frequency. -/
noncomputable def K (i : Fin 3) (k : RModes N) : ℝ :=
  if 2 * waves N i k = N i ∨ 2 * waves N i k = -(N i : ℤ) then 0 else (waves N i k : ℝ)

/-- demo/NS_shenfun.py:17-21: the space `T`; transforms on the solver's own grid, without padding. -/
noncomputable def T : Space (RModes N) (Grid N) := rspace N N

/-- demo/NS_shenfun.py:33 -/
noncomputable def a : List ℝ := [1 / 6, 1 / 3, 1 / 3, 1 / 6]

/-- demo/NS_shenfun.py:34 -/
noncomputable def b : List ℝ := [0.5, 0.5, 1]

/-- demo/NS_shenfun.py:36-40 `Cross`. -/
noncomputable def Cross (a b : PArr 3 (Grid N)) : SArr 3 (RModes N) :=
  ![(T N).forward (a 1 * b 2 - a 2 * b 1), (T N).forward (a 2 * b 0 - a 0 * b 2), (T N).forward (a 0 * b 1 - a 1 * b 0)]

/-- demo/NS_shenfun.py:42-46 `Curl`. -/
noncomputable def Curl (a : SArr 3 (RModes N)) : PArr 3 (Grid N) :=
  ![(T N).backward fun k => I * (K N 1 k * a 2 k - K N 2 k * a 1 k), (T N).backward fun k => I * (K N 2 k * a 0 k - K N 0 k * a 2 k),
    (T N).backward fun k => I * (K N 0 k * a 1 k - K N 1 k * a 0 k)]

/-- demo/NS_shenfun.py:48-56 `ComputeRHS`, with `K2` and `K_over_K2` of lines 31-32, and the array `U` it leaves. -/
noncomputable def ComputeRHS (nu : ℝ) (U : PArr 3 (Grid N)) (U_hat : SArr 3 (RModes N)) (rk : ℕ) : PArr 3 (Grid N) × SArr 3 (RModes N) :=
  let U := if rk > 0 then (T N).vbackward U_hat else U
  let curl := Curl N U_hat
  let dU := Cross N U curl
  let P_hat : RModes N → ℂ := fun k => ∑ i, dU i k * K_over_K2 (K N) i k
  let dU : SArr 3 (RModes N) := fun i k => dU i k - P_hat k * K N i k
  (U, fun i k => dU i k - (nu * K2 (K N) k : ℝ) * U_hat i k)

/-- The arrays that survive a pass of the loop. -/
structure State where
  t : ℝ
  tstep : ℕ
  U : PArr 3 (Grid N)
  U_hat : SArr 3 (RModes N)

/-- demo/NS_shenfun.py:71-75, the body of `for rk in range(4)`; the accumulator is `(U, U_hat, U_hat1)`. -/
noncomputable def stage (nu dt : ℝ) (U_hat0 : SArr 3 (RModes N)) (s : PArr 3 (Grid N) × SArr 3 (RModes N) × SArr 3 (RModes N)) (rk : ℕ) :
    PArr 3 (Grid N) × SArr 3 (RModes N) × SArr 3 (RModes N) :=
  let r := ComputeRHS N nu s.1 s.2.1 rk
  (r.1, if rk < 3 then U_hat0 + (b.getD rk 0 * dt) • r.2 else s.2.1, s.2.2 + (a.getD rk 0 * dt) • r.2)

/-- demo/NS_shenfun.py:68-77, one pass of the loop. -/
noncomputable def step (nu dt : ℝ) (s : State N) : State N :=
  let r := (List.range 4).foldl (stage N nu dt s.U_hat) (s.U, s.U_hat, s.U_hat)
  ⟨s.t + dt, s.tstep + 1, (T N).vbackward r.2.2, r.2.2⟩

/-- demo/NS_shenfun.py:58-65, the start; the box has sides `2 pi` (shenfun's default domain). -/
noncomputable def start : State N :=
  let U := onMesh N (fun _ => 2 * Real.pi) fun X =>
    ![Real.sin (X 0) * Real.cos (X 1) * Real.cos (X 2), -Real.cos (X 0) * Real.sin (X 1) * Real.cos (X 2), 0]
  ⟨0, 0, U, (T N).vforward U⟩

/-- demo/NS_shenfun.py:67, `while t < end_time-1e-8`; `none` if the loop has not ended after `fuel` tests. -/
noncomputable def loop (nu dt end_time : ℝ) : ℕ → State N → Option (State N)
  | 0, _ => none
  | fuel + 1, s => if s.t < end_time - 1e-8 then loop nu dt end_time fuel (step N nu dt s) else some s

/-- demo/NS_shenfun.py:79 -/
noncomputable def kinetic (U : PArr 3 (Grid N)) : ℝ := 0.5 * (∑ i, ∑ x, U i x * U i x) / ∏ j, (N j : ℝ)

/-- The script: the number `k` at its end. -/
noncomputable def main (nu dt end_time : ℝ) (fuel : ℕ) : Option ℝ := (loop N nu dt end_time fuel (start N)).map fun s => kinetic N s.U

end SpectralDNS.NSShenfun

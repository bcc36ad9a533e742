import Verif.Model.PyFloat
import Mathlib.Algebra.Module.Defs
import Mathlib.Data.Rat.Cast.Defs

/-!
# Model of `spectralDNS/maths/integrators.py`

Arrays (`u0`, `u1`, `rhs`, …) are elements of a real vector space `V`: every statement in the file is an
elementwise linear combination with real coefficients, so nothing else of the array structure matters here.
`solver.ComputeRHS(rhs, u, solver, **context)` is a function `F : V → V → V` of the old content of the output
buffer and of `u`.  (That the solvers' right-hand sides do not depend on the buffer is a theorem about the solver
models, not an assumption of this file.)

Simplifications: real numbers for floats; `additional_callback` (lines 75, 134) is the default no-op or at least does
not touch the arrays; the branches `errnorm == "inf"` (which raises) and `predictivecontroller` (never passed by
`getintegrator`) are left out.
-/

namespace SpectralDNS

variable {V : Type*} [AddCommGroup V] [Module ℝ V]

/-! ## RK4, ForwardEuler, AB2 -/

/-- integrators.py:185 `a = [1/6, 1/3, 1/3, 1/6]` -/
noncomputable def rk4a : ℕ → ℝ
  | 0 => 1 / 6
  | 1 => 1 / 3
  | 2 => 1 / 3
  | 3 => 1 / 6
  | _ => 0

/-- integrators.py:186 `b = [0.5, 0.5, 1.]` -/
noncomputable def rk4b : ℕ → ℝ
  | 0 => 0.5
  | 1 => 0.5
  | 2 => 1
  | _ => 0

/-- The arrays owned by the RK4 closure (integrators.py:181-190). -/
structure RK4Arrays (V : Type*) where
  u0 : V
  u1 : V
  u2 : V
  rhs : V

/-- Loop body of RK4, integrators.py:153-157. -/
noncomputable def rk4Stage (F : V → V → V) (a b : ℕ → ℝ) (dt : ℝ) (s : RK4Arrays V) (rk : ℕ) : RK4Arrays V :=
  let rhs := F s.rhs s.u0
  let u0 := if rk < 3 then s.u1 + (b rk * dt) • rhs else s.u0
  { s with rhs := rhs, u0 := u0, u2 := s.u2 + (a rk * dt) • rhs }

/-- RK4, integrators.py:149-159: returns the arrays after the call, and `dt, dt`. -/
noncomputable def RK4 (F : V → V → V) (a b : ℕ → ℝ) (dt : ℝ) (s : RK4Arrays V) : RK4Arrays V × ℝ × ℝ :=
  let s := { s with u1 := s.u0, u2 := s.u0 }
  let s := (List.range 4).foldl (rk4Stage F a b dt) s
  ({ s with u0 := s.u2 }, dt, dt)

/-- ForwardEuler, integrators.py:161-165; arrays are `(u0, rhs)`. -/
noncomputable def ForwardEuler (F : V → V → V) (dt : ℝ) (s : V × V) : (V × V) × ℝ × ℝ :=
  let rhs := F s.2 s.1
  ((s.1 + dt • rhs, rhs), dt, dt)

/-- The arrays owned by the AB2 closure. -/
structure AB2Arrays (V : Type*) where
  u0 : V
  u1 : V
  rhs : V

/-- AB2, integrators.py:167-175. -/
noncomputable def AB2 (F : V → V → V) (dt : ℝ) (tstep : ℕ) (s : AB2Arrays V) : AB2Arrays V × ℝ × ℝ :=
  let rhs := F s.rhs s.u0
  let u0 := if tstep = 0 then s.u0 + dt • rhs
            else s.u0 + ((1.5 : ℝ) • dt • rhs - (0.5 : ℝ) • s.u1)
  (⟨u0, dt • rhs, rhs⟩, dt, dt)

/-! ## adaptiveRK -/

/-- Runge-Kutta coefficients (arguments `A, b, bhat` of adaptiveRK, integrators.py:15); `s = A.shape[0]`. -/
structure Tableau where
  s : ℕ
  A : ℕ → ℕ → ℝ
  b : ℕ → ℝ
  bhat : ℕ → ℝ

/-- Index `(i + offset[0]) % s` into `fY_hat` (integrators.py:66-83), Python `%`. -/
def slot (s i : ℕ) (offset : ℤ) : ℕ := (((i : ℤ) + offset) % (s : ℤ)).toNat

/-- Inner loop `for j in range(0, i): fY_hat[i'] += dt*A[i, j]*fY_hat[j']`, integrators.py:67-68. -/
noncomputable def stageAccum (T : Tableau) (dt : ℝ) (offset : ℤ) (i : ℕ) (fY : ℕ → V) : ℕ → V :=
  (List.range i).foldl
    (fun r j => Function.update r (slot T.s i offset)
      (r (slot T.s i offset) + (dt * T.A i j) • r (slot T.s j offset))) fY

/-- Body of the stage loop, integrators.py:64-71; the state is `(fY_hat, rhs)`. -/
noncomputable def rkStage (F : V → V → V) (T : Tableau) (fsal : Bool) (tstep : ℕ) (dt : ℝ) (offset : ℤ) (u0 : V)
    (st : (ℕ → V) × V) (i : ℕ) : (ℕ → V) × V :=
  if !fsal || (tstep == 0 || i != 0) then
    let fY := Function.update st.1 (slot T.s i offset) u0
    let fY := stageAccum T dt offset i fY
    let rhs := F st.2 (fY (slot T.s i offset))
    (Function.update fY (slot T.s i offset) rhs, rhs)
  else st

/-- All stages, integrators.py:64-71. -/
noncomputable def rkStages (F : V → V → V) (T : Tableau) (fsal : Bool) (tstep : ℕ) (dt : ℝ) (offset : ℤ) (u0 : V)
    (st : (ℕ → V) × V) : (ℕ → V) × V :=
  (List.range T.s).foldl (rkStage F T fsal tstep dt offset u0) st

/-- `u0_new`, integrators.py:78-83. -/
noncomputable def rkNew (T : Tableau) (dt : ℝ) (offset : ℤ) (u0 : V) (fY : ℕ → V) : V :=
  (List.range' 1 (T.s - 1)).foldl (fun r j => r + (dt * T.b j) • fY (slot T.s j offset))
    (u0 + (dt * T.b 0) • fY (slot T.s 0 offset))

/-- `err`, integrators.py:80-84. -/
noncomputable def rkErr (T : Tableau) (dt : ℝ) (offset : ℤ) (fY : ℕ → V) : V :=
  (List.range' 1 (T.s - 1)).foldl (fun r j => r + (dt * (T.b j - T.bhat j)) • fY (slot T.s j offset))
    ((dt * (T.b 0 - T.bhat 0)) • fY (slot T.s 0 offset))

/-- `facmax_default`, integrators.py:54 -/
def facmaxDefault : ℝ := 2
/-- `fac`, integrators.py:56 -/
noncomputable def fac : ℝ := 0.8
/-- `facmin`, integrators.py:57 -/
noncomputable def facmin : ℝ := 0.01

/-- `factor = min(facmax, max(facmin, fac*pow((1/est), exponent)))`, integrators.py:116-118. -/
noncomputable def stepFactor (facmax : ℝ) (errOrder : ℕ) (est : PyF) : PyF :=
  PyF.pyMin (.fin facmax)
    (PyF.pyMax (.fin facmin) (PyF.scale fac (PyF.pow (PyF.recip est) (1 / ((errOrder : ℝ) + 1)))))

/-- Persistent arrays of the BS5 closure: `u0`, `fY_hat`, `rhs`, `offset[0]` (integrators.py:215-227).
`u1`, `sc`, `err` are overwritten before being read in every trial and are left out. -/
structure RKArrays (V : Type*) where
  u0 : V
  fY : ℕ → V
  rhs : V
  offset : ℤ

/-- What one call of adaptiveRK produces. -/
structure RKResult (V : Type*) where
  arrays : RKArrays V
  /-- the `dt` returned (next step size) -/
  dt : ℝ
  /-- the `dt_prev` returned (step size actually taken) -/
  took : ℝ
  /-- error estimate of the accepted trial (not returned by the code; kept for specification) -/
  est : PyF
  /-- the sizes of the rejected trials, in order (`context.dt_rejected`, line 133) -/
  rejected : List ℝ

/-- What one pass through the loop body computes before the step-size decision. -/
structure Trial (V : Type*) where
  offset : ℤ
  fY : ℕ → V
  rhs : V
  new : V
  est : PyF

/-- First half of the loop body, integrators.py:61-99: rotate the buffer, compute the stages, the new solution and
the error estimate.  `est err u0 u0_new` is the (already reduced and broadcast) estimate of lines 86-99. -/
noncomputable def rkTrial (F : V → V → V) (T : Tableau) (fsal : Bool) (est : V → V → V → PyF) (tstep : ℕ) (dt : ℝ)
    (st : RKArrays V) : Trial V :=
  let offset := if fsal then (st.offset - 1) % (T.s : ℤ) else st.offset
  let r := rkStages F T fsal tstep dt offset st.u0 (st.fY, st.rhs)
  let new := rkNew T dt offset st.u0 r.1
  let err := rkErr T dt offset r.1
  ⟨offset, r.1, r.2, new, est err st.u0 new⟩

open Classical in
/-- The `while True` loop of adaptiveRK, integrators.py:60-147, with fuel (`none` = out of fuel). -/
noncomputable def adaptiveLoop (F : V → V → V) (T : Tableau) (errOrder : ℕ) (fsal adaptive : Bool)
    (est : V → V → V → PyF) (tstep : ℕ) : ℕ → ℝ → ℝ → RKArrays V → List ℝ → Option (RKResult V)
  | 0, _, _, _, _ => none
  | fuel + 1, facmax, dt, st, rej =>
    let t := rkTrial F T fsal est tstep dt st
    let factor := stepFactor facmax errOrder t.est
    if adaptive then
      if PyF.Gt t.est (.fin 1) then
        adaptiveLoop F T errOrder fsal adaptive est tstep fuel 1 (dt * factor.toReal)
          ⟨st.u0, t.fY, t.rhs, if fsal then t.offset + 1 else t.offset⟩ (rej ++ [dt])
      else some ⟨⟨t.new, t.fY, t.rhs, t.offset⟩, dt * factor.toReal, dt, t.est, rej⟩
    else some ⟨⟨t.new, t.fY, t.rhs, t.offset⟩, dt, dt, t.est, rej⟩

/-- adaptiveRK, integrators.py:15-147. -/
noncomputable def adaptiveRK (F : V → V → V) (T : Tableau) (errOrder : ℕ) (fsal adaptive : Bool)
    (est : V → V → V → PyF) (fuel : ℕ) (dt : ℝ) (tstep : ℕ) (st : RKArrays V) : Option (RKResult V) :=
  adaptiveLoop F T errOrder fsal adaptive est tstep fuel facmaxDefault dt st []

/-! ## The BS5 tableau -/

/-- Rows of `A`, integrators.py:199-206 (as exact rationals). -/
def bs5A : List (List ℚ) :=
  [[0, 0, 0, 0, 0, 0, 0, 0],
   [1/6, 0, 0, 0, 0, 0, 0, 0],
   [2/27, 4/27, 0, 0, 0, 0, 0, 0],
   [183/1372, -162/343, 1053/1372, 0, 0, 0, 0, 0],
   [68/297, -4/11, 42/143, 1960/3861, 0, 0, 0, 0],
   [597/22528, 81/352, 63099/585728, 58653/366080, 4617/20480, 0, 0, 0],
   [174197/959244, -30942/79937, 8152137/19744439, 666106/1039181, -29421/29068, 482048/414219, 0, 0],
   [587/8064, 0, 4440339/15491840, 24353/124800, 387/44800, 2152/5985, 7267/94080, 0]]

/-- `b`, integrators.py:207. -/
def bs5b : List ℚ := [587/8064, 0, 4440339/15491840, 24353/124800, 387/44800, 2152/5985, 7267/94080, 0]

/-- `bhat`, integrators.py:208. -/
def bs5bhat : List ℚ :=
  [2479/34992, 0, 123/416, 612941/3411720, 43/1440, 2272/6561, 79937/1113912, 3293/556956]

/-- The tableau handed to adaptiveRK (integrators.py:199-208), cast to the reals. -/
noncomputable def bs5 : Tableau where
  s := 8
  A := fun i j => (((bs5A.getD i []).getD j 0 : ℚ) : ℝ)
  b := fun j => ((bs5b.getD j 0 : ℚ) : ℝ)
  bhat := fun j => ((bs5bhat.getD j 0 : ℚ) : ℝ)

/-! ## getintegrator -/

/-- The integrator names understood by `getintegrator` (integrators.py:183-239). -/
inductive Method where
  | RK4
  | BS5 (adaptive : Bool)
  | ForwardEuler
  | AB2

/-- `params.integrator` dispatch, integrators.py:183-239.  Any other string makes `getintegrator` return `None`. -/
def Method.ofName : String → Option Method
  | "RK4" => some .RK4
  | "BS5_adaptive" => some (.BS5 true)
  | "BS5_fixed" => some (.BS5 false)
  | "ForwardEuler" => some .ForwardEuler
  | "AB2" => some .AB2
  | _ => none

/-- All arrays captured by the closure returned by `getintegrator` (integrators.py:181-239); each method uses only
some of them. -/
structure Closure (V : Type*) where
  u0 : V
  u1 : V
  u2 : V
  rhs : V
  fY : ℕ → V
  offset : ℤ

/-- Closure creation: `u1 = u0.copy()` (line 181), `u2 = u0.copy()` (187), `fY_hat` zeros (217), `offset = [0]` (215). -/
def getintegrator (rhs u0 : V) : Closure V := ⟨u0, u0, u0, rhs, fun _ => 0, 0⟩

/-- One call `integrate()` of the closure (integrators.py:189, 222-226, 231, 237):
returns the arrays, the new `dt` and the step taken; `none` only if the retry loop runs out of fuel. -/
noncomputable def integrate (F : V → V → V) (est : V → V → V → PyF) (fuel : ℕ) (m : Method)
    (dt : ℝ) (tstep : ℕ) (c : Closure V) : Option (Closure V × ℝ × ℝ) :=
  match m with
  | .RK4 =>
    let r := RK4 F rk4a rk4b dt ⟨c.u0, c.u1, c.u2, c.rhs⟩
    some ({ c with u0 := r.1.u0, u1 := r.1.u1, u2 := r.1.u2, rhs := r.1.rhs }, r.2)
  | .ForwardEuler =>
    let r := ForwardEuler F dt (c.u0, c.rhs)
    some ({ c with u0 := r.1.1, rhs := r.1.2 }, r.2)
  | .AB2 =>
    let r := AB2 F dt tstep ⟨c.u0, c.u1, c.rhs⟩
    some ({ c with u0 := r.1.u0, u1 := r.1.u1, rhs := r.1.rhs }, r.2)
  | .BS5 adaptive =>
    (adaptiveRK F bs5 4 true adaptive est fuel dt tstep ⟨c.u0, c.fY, c.rhs, c.offset⟩).map fun r =>
      ({ c with u0 := r.arrays.u0, fY := r.arrays.fY, rhs := r.arrays.rhs, offset := r.arrays.offset }, r.dt, r.took)

/-- A run of consecutive `integrate()` calls as made by `solve` (`spectralDNS/__init__.py:94-99`): the requested sizes
are `ds` (in `solve` they come from the previous call and from the end-of-step hook; every list is allowed here) and
`params.tstep` increases by one per call. -/
noncomputable def runSteps (F : V → V → V) (est : V → V → V → PyF) (fuel : ℕ) (m : Method) :
    ℕ → List ℝ → Closure V → Option (Closure V)
  | _, [], c => some c
  | tstep, dt :: ds, c =>
    match integrate F est fuel m dt tstep c with
    | none => none
    | some r => runSteps F est fuel m (tstep + 1) ds r.1

/-- As `runSteps`, recording after every call the state and the two returned sizes (`__init__.py:94-99`). -/
noncomputable def runOutputs (F : V → V → V) (est : V → V → V → PyF) (fuel : ℕ) (m : Method) :
    ℕ → List ℝ → Closure V → Option (List (V × ℝ × ℝ))
  | _, [], _ => some []
  | tstep, dt :: ds, c =>
    match integrate F est fuel m dt tstep c with
    | none => none
    | some r => (runOutputs F est fuel m (tstep + 1) ds r.1).map ((r.1.u0, r.2) :: ·)

end SpectralDNS

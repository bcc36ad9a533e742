import Verif.Model.Periodic
import Mathlib.Data.List.FinRange

/-!
# Model of spectralDNS/optimization

`optimizer` (optimization/__init__.py), the compiled integrators (cython_integrators.in, numba_module.py,
pythran_module.py) and the compiled kernels (cython_maths.in, cython_solvers.in, numba_module.py, pythran_maths.py).

An array of shape `(n0, n1, n2)` is a function on `Fin n0 × Fin n1 × Fin n2`; a leading component axis is separate as in
`Verif.Model.Periodic`.  The loops are folds which write one entry at a time, in the order of the code.  Simplifications:
exact arithmetic (also for `fastmath` and for single precision); distinct arrays do not share memory; `ComputeRHS`
returns the array it was given (the cython RK4 keeps a view of the original `dU`).
-/

namespace SpectralDNS.Opt

open Periodic

/-! ## optimizer -/

/-- What a decorated function calls. -/
inductive Callee where
  /-- the numpy original -/
  | numpy
  /-- the attribute `name` of the optimisation module `mod` -/
  | compiled (mod name : String)
  /-- `None`: the call raises `TypeError` -/
  | none
  deriving DecidableEq

/-- optimization/__init__.py:12-55 `optimizer`.  `mods m = some f` if the module `m` is imported under that name
(lines 57-79), and `f n` tells whether `getattr(mod, n, None)` finds a function.  `mesh` is the attribute `config.mesh`,
`none` when `config` has no such attribute (the lookup then raises and the bare `except` on line 48 takes over).
`ndim` is `len(config.params.N)`. -/
def optimizer (mods : String → Option (String → Bool)) (mesh : Option String)
    (optimization precision solver : String) (ndim : ℕ) (name : String) : Callee :=
  let mod := optimization ++ "_" ++ precision
  match mods mod with
  | .none => .numpy
  | some f =>
    let generic := if ndim = 2 then name ++ "_2D" else name
    if f generic then .compiled mod generic
    else if f (name ++ "_" ++ solver) then .compiled mod (name ++ "_" ++ solver)
    else match mesh with
      | .none => .numpy
      | some m => if f (name ++ "_" ++ m) then .compiled mod (name ++ "_" ++ m) else .none

/-- `config.mesh`: spectralDNS/config.py defines no attribute `mesh` and nothing in /repo assigns one. -/
def configMesh : Option String := .none

/-! ## Loops -/

/-- Index of an array of shape `(n0, n1, n2)`. -/
abbrev Ix3 (n0 n1 n2 : ℕ) := Fin n0 × Fin n1 × Fin n2
/-- Index of an array of shape `(n, n0, n1, n2)`. -/
abbrev Ix4 (n n0 n1 n2 : ℕ) := Fin n × Ix3 n0 n1 n2

/-- `for i in range(n): body`. -/
def forRange {S : Type*} (n : ℕ) (body : Fin n → S → S) (s : S) : S := (List.finRange n).foldl (fun s i => body i s) s

/-- Two nested loops. -/
def loop2D {S : Type*} {n0 n1 : ℕ} (body : Fin n0 × Fin n1 → S → S) : S → S :=
  forRange n0 fun i => forRange n1 fun j => body (i, j)

/-- Three nested loops. -/
def loop3D {S : Type*} {n0 n1 n2 : ℕ} (body : Ix3 n0 n1 n2 → S → S) : S → S :=
  forRange n0 fun i => loop2D fun q => body (i, q)

/-- Four nested loops. -/
def loop4D {S : Type*} {n n0 n1 n2 : ℕ} (body : Ix4 n n0 n1 n2 → S → S) : S → S :=
  forRange n fun m => loop3D fun p => body (m, p)

/-! ## Integrators

`loop` stands for the loop nest over the array: `loop4D` in three dimensions, `loop3D` for the `_2D` variants. -/

section Integrators

variable {κ : Type*} [DecidableEq κ]

/-- A loop nest over the index set `κ`, for any type of state. -/
def Nest (κ : Type*) := ∀ S : Type, (κ → S → S) → S → S

/-- The nest of the four-dimensional arrays. -/
def nest4 (n n0 n1 n2 : ℕ) : Nest (Ix4 n n0 n1 n2) := fun _ => loop4D
/-- The nest of the three-dimensional arrays of the two-dimensional solvers. -/
def nest3 (n n0 n1 : ℕ) : Nest (Ix3 n n0 n1) := fun _ => loop3D

/-- numba_module.py:3-11, pythran_maths.py:3-10 `loop1`: `(U_hat0, U_hat1)`; also cython_integrators.in:114-119 and the
whole-array copies of cython_integrators.in:30-31 (same effect). -/
def loop1 {κ : Type} [DecidableEq κ] (L : Nest κ) (U : κ → ℂ) (s : (κ → ℂ) × (κ → ℂ)) : (κ → ℂ) × (κ → ℂ) :=
  L _ (fun i s =>
    let z := U i
    let U1 := Function.update s.2 i z
    let U0 := Function.update s.1 i z
    (U0, U1)) s

/-- numba_module.py:13-19, pythran_maths.py:14-19 `loop2`, cython_integrators.in:36-41 and 118-122. -/
noncomputable def loop2 {κ : Type} [DecidableEq κ] (L : Nest κ) (dU U0 : κ → ℂ) (b dt : ℝ) (U : κ → ℂ) : κ → ℂ :=
  L _ (fun i U => Function.update U i (U0 i + (b : ℂ) * dt * dU i)) U

/-- numba_module.py:21-27, pythran_maths.py:23-28 `loop3`, cython_integrators.in:42-46 and 124-127. -/
noncomputable def loop3 {κ : Type} [DecidableEq κ] (L : Nest κ) (dU : κ → ℂ) (a dt : ℝ) (U1 : κ → ℂ) : κ → ℂ :=
  L _ (fun i U1 => Function.update U1 i (U1 i + (a : ℂ) * dt * dU i)) U1

/-- numba_module.py:29-35, pythran_maths.py:32-37 `loop4`, cython_integrators.in:51 and 129-132. -/
def loop4 {κ : Type} [DecidableEq κ] (L : Nest κ) (U1 : κ → ℂ) (U : κ → ℂ) : κ → ℂ :=
  L _ (fun i U => Function.update U i (U1 i)) U

/-- numba_module.py:48-54, pythran_maths.py:41-46 `loop5`, cython_integrators.in:83-87 and 163-167. -/
noncomputable def loop5 {κ : Type} [DecidableEq κ] (L : Nest κ) (dU : κ → ℂ) (dt : ℝ) (U : κ → ℂ) : κ → ℂ :=
  L _ (fun i U => Function.update U i (U i + dU i * dt)) U

/-- numba_module.py:56-62, pythran_maths.py:50-55 `loop6`, cython_integrators.in:90-94 and 169-173 (`p0 = 1.5`, `p1 = 0.5`). -/
noncomputable def loop6 {κ : Type} [DecidableEq κ] (L : Nest κ) (dU U0 : κ → ℂ) (dt : ℝ) (U : κ → ℂ) : κ → ℂ :=
  L _ (fun i U => Function.update U i (U i + (1.5 : ℝ) * dU i * dt - (0.5 : ℝ) * U0 i)) U

/-- numba_module.py:64-70, pythran_maths.py:59-64 `loop7`, cython_integrators.in:96-100 and 175-178. -/
noncomputable def loop7 {κ : Type} [DecidableEq κ] (L : Nest κ) (dU : κ → ℂ) (dt : ℝ) (U0 : κ → ℂ) : κ → ℂ :=
  L _ (fun i U0 => Function.update U0 i (dU i * dt)) U0

/-- The stage loop body of the compiled RK4 (numba_module.py:40-44, pythran_module.py:7-11, cython_integrators.in:33-46 and
116-127). -/
noncomputable def rk4Stage {κ : Type} [DecidableEq κ] (L : Nest κ) (F : (κ → ℂ) → (κ → ℂ) → κ → ℂ) (a b : ℕ → ℝ) (dt : ℝ)
    (s : RK4Arrays (κ → ℂ)) (rk : ℕ) : RK4Arrays (κ → ℂ) :=
  let dU := F s.rhs s.u0
  let U := if rk < 3 then loop2 L dU s.u1 (b rk) dt s.u0 else s.u0
  let U1 := loop3 L dU (a rk) dt s.u2
  { s with rhs := dU, u0 := U, u2 := U1 }

/-- The compiled RK4: numba_module.py:37-46, pythran_module.py:4-13, cython_integrators.in:8-52 (`nest4`) and
cython_integrators.in:103-139 `RK4_2D` (`nest3`). The arrays `u0, u1, u2, rhs` are called `U_hat, U_hat0, U_hat1, dU` there. -/
noncomputable def rk4 {κ : Type} [DecidableEq κ] (L : Nest κ) (F : (κ → ℂ) → (κ → ℂ) → κ → ℂ) (a b : ℕ → ℝ) (dt : ℝ)
    (s : RK4Arrays (κ → ℂ)) : RK4Arrays (κ → ℂ) × ℝ × ℝ :=
  let c := loop1 L s.u0 (s.u1, s.u2)
  let s := { s with u1 := c.1, u2 := c.2 }
  let s := (List.range 4).foldl (rk4Stage L F a b dt) s
  ({ s with u0 := loop4 L s.u2 s.u0 }, dt, dt)

/-- The compiled ForwardEuler of numba_module.py:72-75 and pythran_module.py:15-18. -/
noncomputable def forwardEuler {κ : Type} [DecidableEq κ] (L : Nest κ) (F : (κ → ℂ) → (κ → ℂ) → κ → ℂ) (dt : ℝ)
    (s : (κ → ℂ) × (κ → ℂ)) : ((κ → ℂ) × (κ → ℂ)) × ℝ × ℝ :=
  let dU := F s.2 s.1
  ((loop5 L dU dt s.1, dU), dt, dt)

/-- The compiled AB2 with the start-up test `tstep == first`: numba_module.py:77-84, pythran_module.py:20-27 and
cython_integrators.in:70-101 have `first = 0`; cython_integrators.in:156-184 `AB2_2D` has `first = 1`. -/
noncomputable def ab2 {κ : Type} [DecidableEq κ] (L : Nest κ) (first : ℕ) (F : (κ → ℂ) → (κ → ℂ) → κ → ℂ) (dt : ℝ) (tstep : ℕ)
    (s : AB2Arrays (κ → ℂ)) : AB2Arrays (κ → ℂ) × ℝ × ℝ :=
  let dU := F s.rhs s.u0
  let U := if tstep = first then loop5 L dU dt s.u0 else loop6 L dU s.u1 dt s.u0
  (⟨U, loop7 L dU dt s.u1, dU⟩, dt, dt)

/-- cython_integrators.in:70-101 `AB2`. -/
noncomputable def cythonAB2 {n n0 n1 n2 : ℕ} (F : (Ix4 n n0 n1 n2 → ℂ) → (Ix4 n n0 n1 n2 → ℂ) → Ix4 n n0 n1 n2 → ℂ) :=
  ab2 (nest4 n n0 n1 n2) 0 F

/-- cython_integrators.in:156-184 `AB2_2D`: line 168 tests `tstep == 1`. -/
noncomputable def cythonAB2_2D {n n0 n1 : ℕ} (F : (Ix3 n n0 n1 → ℂ) → (Ix3 n n0 n1 → ℂ) → Ix3 n n0 n1 → ℂ) :=
  ab2 (nest3 n n0 n1) 1 F

/-- Result of a Python call. -/
inductive CallResult (α : Type*) where
  | value (a : α)
  | typeError

/-- Calling a function with `params` positional parameters on `args` arguments. -/
def callWith {α : Type*} (params args : ℕ) (a : α) : CallResult α := if params = args then .value a else .typeError

/-- The number of arguments in the call `ForwardEuler(u0, rhs, params.dt, solver, context)` (integrators.py, `getintegrator`;
the wrapper passes `*args` on, optimization/__init__.py:44-46). -/
def forwardEulerArgs : ℕ := 5
/-- Parameters of `ForwardEuler(U_hat, dU, dt, solver, context)` in numba_module.py:72 and pythran_module.py:15. -/
def forwardEulerParamsNumba : ℕ := 5
/-- Parameters of `ForwardEuler(U_hat, U_hat0, dU, dt, solver, context)` in cython_integrators.in:54-59 and of `ForwardEuler_2D`
in cython_integrators.in:141-146. -/
def forwardEulerParamsCython : ℕ := 6

/-- The call of the cython ForwardEuler from `getintegrator`. -/
noncomputable def callForwardEulerCython {κ : Type} [DecidableEq κ] (L : Nest κ) (F : (κ → ℂ) → (κ → ℂ) → κ → ℂ) (dt : ℝ)
    (s : (κ → ℂ) × (κ → ℂ)) : CallResult (((κ → ℂ) × (κ → ℂ)) × ℝ × ℝ) :=
  callWith forwardEulerParamsCython forwardEulerArgs (forwardEuler L F dt s)

/-- The call of the numba or pythran ForwardEuler from `getintegrator`. -/
noncomputable def callForwardEulerNumba {κ : Type} [DecidableEq κ] (L : Nest κ) (F : (κ → ℂ) → (κ → ℂ) → κ → ℂ) (dt : ℝ)
    (s : (κ → ℂ) × (κ → ℂ)) : CallResult (((κ → ℂ) × (κ → ℂ)) × ℝ × ℝ) :=
  callWith forwardEulerParamsNumba forwardEulerArgs (forwardEuler L F dt s)

end Integrators

/-! ## Cross products -/

section Cross

variable {n0 n1 n2 : ℕ}

/-- Write `c[m, p] = v`. -/
def wr {κ R : Type*} [DecidableEq κ] {d : ℕ} (c : Fin d → κ → R) (m : Fin d) (p : κ) (v : R) : Fin d → κ → R :=
  Function.update c m (Function.update (c m) p v)

/-- The wavenumber list `K` (NS.py:38-41): arrays of shapes `(n0,1,1)`, `(1,n1,1)` and `(1,1,n2)`. -/
structure KList3 (n0 n1 n2 : ℕ) where
  kx : Ix3 n0 1 1 → ℝ
  ky : Ix3 1 n1 1 → ℝ
  kz : Ix3 1 1 n2 → ℝ

/-- numpy broadcasting of the list to the full shape. -/
def KList3.full (K : KList3 n0 n1 n2) : Fin 3 → Ix3 n0 n1 n2 → ℝ :=
  ![fun p => K.kx (p.1, 0, 0), fun p => K.ky (0, p.2.1, 0), fun p => K.kz (0, 0, p.2.2)]

/-- cython_maths.in:13-30, numba_module.py:86-101, pythran_maths.py:68-82 `cross1`. -/
def cross1 (c a b : Fin 3 → Ix3 n0 n1 n2 → ℝ) : Fin 3 → Ix3 n0 n1 n2 → ℝ :=
  loop3D (fun p c =>
    let c := wr c 0 p (a 1 p * b 2 p - a 2 p * b 1 p)
    let c := wr c 1 p (a 2 p * b 0 p - a 0 p * b 2 p)
    wr c 2 p (a 0 p * b 1 p - a 1 p * b 0 p)) c

/-- `z.real = x` on a complex entry. -/
def setRe (z : ℂ) (x : ℝ) : ℂ := ⟨x, z.im⟩
/-- `z.imag = y` on a complex entry. -/
def setIm (z : ℂ) (y : ℝ) : ℂ := ⟨z.re, y⟩

/-- The six assignments of cython_maths.in:54-59 and 82-87 with local variables `a0, a1, a2`. -/
def crossCell (a0 a1 a2 : ℝ) (b : SArr 3 (Ix3 n0 n1 n2)) (p : Ix3 n0 n1 n2) (c : SArr 3 (Ix3 n0 n1 n2)) : SArr 3 (Ix3 n0 n1 n2) :=
  let b0 := b 0 p
  let b1 := b 1 p
  let b2 := b 2 p
  let c := wr c 0 p (setRe (c 0 p) (-(a1 * b2.im - a2 * b1.im)))
  let c := wr c 0 p (setIm (c 0 p) (a1 * b2.re - a2 * b1.re))
  let c := wr c 1 p (setRe (c 1 p) (-(a2 * b0.im - a0 * b2.im)))
  let c := wr c 1 p (setIm (c 1 p) (a2 * b0.re - a0 * b2.re))
  let c := wr c 2 p (setRe (c 2 p) (-(a0 * b1.im - a1 * b0.im)))
  wr c 2 p (setIm (c 2 p) (a0 * b1.re - a1 * b0.re))

/-- cython_maths.in:39-60 `_cross2`, with a full array `a`. -/
def cythonCross2 (c : SArr 3 (Ix3 n0 n1 n2)) (a : Fin 3 → Ix3 n0 n1 n2 → ℝ) (b : SArr 3 (Ix3 n0 n1 n2)) : SArr 3 (Ix3 n0 n1 n2) :=
  loop3D (fun p c => crossCell (a 0 p) (a 1 p) (a 2 p) b p c) c

/-- cython_maths.in:62-86 `_cross3`, with the list of wavenumbers. -/
def cythonCross3 (c : SArr 3 (Ix3 n0 n1 n2)) (K : KList3 n0 n1 n2) (b : SArr 3 (Ix3 n0 n1 n2)) : SArr 3 (Ix3 n0 n1 n2) :=
  forRange n0 (fun i =>
    let a0 := K.kx (i, 0, 0)
    forRange n1 fun j =>
      let a1 := K.ky (0, j, 0)
      forRange n2 fun k c =>
        let a2 := K.kz (0, 0, k)
        crossCell a0 a1 a2 b (i, j, k) c) c

/-- The three assignments of numba_module.py:115-117 and 132-134, pythran_maths.py:97-99 and 117-119. -/
noncomputable def crossCellNumba (a0 a1 a2 : ℝ) (b : SArr 3 (Ix3 n0 n1 n2)) (p : Ix3 n0 n1 n2) (c : SArr 3 (Ix3 n0 n1 n2)) :
    SArr 3 (Ix3 n0 n1 n2) :=
  let b0 := b 0 p
  let b1 := b 1 p
  let b2 := b 2 p
  let c := wr c 0 p (((-(a1 * b2.im - a2 * b1.im) : ℝ) : ℂ) + Complex.I * ((a1 * b2.re - a2 * b1.re : ℝ) : ℂ))
  let c := wr c 1 p (((-(a2 * b0.im - a0 * b2.im) : ℝ) : ℂ) + Complex.I * ((a2 * b0.re - a0 * b2.re : ℝ) : ℂ))
  wr c 2 p (((-(a0 * b1.im - a1 * b0.im) : ℝ) : ℂ) + Complex.I * ((a0 * b1.re - a1 * b0.re : ℝ) : ℂ))

/-- numba_module.py:103-118, pythran_maths.py:86-100 `cross2a`. -/
noncomputable def numbaCross2a (c : SArr 3 (Ix3 n0 n1 n2)) (a : Fin 3 → Ix3 n0 n1 n2 → ℝ) (b : SArr 3 (Ix3 n0 n1 n2)) :
    SArr 3 (Ix3 n0 n1 n2) :=
  loop3D (fun p c => crossCellNumba (a 0 p) (a 1 p) (a 2 p) b p c) c

/-- numba_module.py:120-135 `cross2c` called with `a[0], a[1], a[2]` (line 139); pythran_maths.py:104-118 called with
`a[0][:, 0, 0], a[1][0, :, 0], a[2][0, 0, :]` (pythran_module.py:31) reads the same entries. -/
noncomputable def numbaCross2c (c : SArr 3 (Ix3 n0 n1 n2)) (K : KList3 n0 n1 n2) (b : SArr 3 (Ix3 n0 n1 n2)) :
    SArr 3 (Ix3 n0 n1 n2) :=
  loop3D (fun p c => crossCellNumba (K.kx (p.1, 0, 0)) (K.ky (0, p.2.1, 0)) (K.kz (0, 0, p.2.2)) b p c) c

/-- cython_maths.in:89-102 `cross1_2D`. -/
def cross1_2D (c : Fin n0 × Fin n1 → ℝ) (a b : Fin 2 → Fin n0 × Fin n1 → ℝ) : Fin n0 × Fin n1 → ℝ :=
  loop2D (fun p c => Function.update c p (a 0 p * b 1 p - a 1 p * b 0 p)) c

/-- The two assignments of cython_maths.in:124-125 and 148-149. -/
def crossCell2D (a0 a1 : ℝ) (b : SArr 2 (Fin n0 × Fin n1)) (p : Fin n0 × Fin n1) (c : Fin n0 × Fin n1 → ℂ) : Fin n0 × Fin n1 → ℂ :=
  let b0 := b 0 p
  let b1 := b 1 p
  let c := Function.update c p (setRe (c p) (-(a0 * b1.im - a1 * b0.im)))
  Function.update c p (setIm (c p) (a0 * b1.re - a1 * b0.re))

/-- cython_maths.in:112-126 `_cross2_2D`. -/
def cythonCross2_2D (c : Fin n0 × Fin n1 → ℂ) (a : Fin 2 → Fin n0 × Fin n1 → ℝ) (b : SArr 2 (Fin n0 × Fin n1)) : Fin n0 × Fin n1 → ℂ :=
  loop2D (fun p c => crossCell2D (a 0 p) (a 1 p) b p c) c

/-- A two-dimensional buffer as compiled code sees it without bounds checks: a base in memory and two strides.  Reading entry
`[i, j]` reads the memory cell `i*s0 + j*s1` after the base, whatever the shape is. -/
structure Buf where
  mem : ℕ → ℝ
  s0 : ℕ
  s1 : ℕ

/-- Unchecked read (cython_maths.in:1 `boundscheck=False`). -/
def Buf.read (B : Buf) (i j : ℕ) : ℝ := B.mem (i * B.s0 + j * B.s1)

/-- cython_maths.in:128-147 `_cross3_2D`: reads `kx[i,j]` and `ky[i,j]` although the arrays have shapes `(n0, 1)` and `(1, n1)`. -/
def cythonCross3_2D (c : Fin n0 × Fin n1 → ℂ) (kx ky : Buf) (b : SArr 2 (Fin n0 × Fin n1)) : Fin n0 × Fin n1 → ℂ :=
  loop2D (fun p c => crossCell2D (kx.read p.1 p.2) (ky.read p.1 p.2) b p c) c

/-- The wavenumber list of a two-dimensional solver, broadcast as numpy does: `kx[i,0]` and `ky[0,j]`. -/
def fullBuf (kx ky : Buf) : Fin 2 → Fin n0 × Fin n1 → ℝ := ![fun p => kx.read p.1 0, fun p => ky.read 0 p.2]

end Cross

/-! ## Solver kernels -/

section Kernels

variable {n0 n1 n2 : ℕ}

/-- Loop body of cython_solvers.in:62-78 with local variables `k0, k1, k2`; the state is `(du, p_hat)`, real and imaginary parts are
assigned separately. -/
def pressureCellCython (k0 k1 k2 : ℝ) (u_hat : SArr 3 (Ix3 n0 n1 n2)) (nu : ℝ) (ksq : Ix3 n0 n1 n2 → ℝ)
    (kk : Fin 3 → Ix3 n0 n1 n2 → ℝ) (p : Ix3 n0 n1 n2) (s : SArr 3 (Ix3 n0 n1 n2) × (Ix3 n0 n1 n2 → ℂ)) :
    SArr 3 (Ix3 n0 n1 n2) × (Ix3 n0 n1 n2 → ℂ) :=
  let z := nu * ksq p
  let du := s.1
  let ph := s.2
  let ph := Function.update ph p (setRe (ph p) ((du 0 p).re * kk 0 p + (du 1 p).re * kk 1 p + (du 2 p).re * kk 2 p))
  let ph := Function.update ph p (setIm (ph p) ((du 0 p).im * kk 0 p + (du 1 p).im * kk 1 p + (du 2 p).im * kk 2 p))
  let du := wr du 0 p (setRe (du 0 p) ((du 0 p).re - ((ph p).re * k0 + (u_hat 0 p).re * z)))
  let du := wr du 0 p (setIm (du 0 p) ((du 0 p).im - ((ph p).im * k0 + (u_hat 0 p).im * z)))
  let du := wr du 1 p (setRe (du 1 p) ((du 1 p).re - ((ph p).re * k1 + (u_hat 1 p).re * z)))
  let du := wr du 1 p (setIm (du 1 p) ((du 1 p).im - ((ph p).im * k1 + (u_hat 1 p).im * z)))
  let du := wr du 2 p (setRe (du 2 p) ((du 2 p).re - ((ph p).re * k2 + (u_hat 2 p).re * z)))
  let du := wr du 2 p (setIm (du 2 p) ((du 2 p).im - ((ph p).im * k2 + (u_hat 2 p).im * z)))
  (du, ph)

/-- cython_solvers.in:44-80 `add_pressure_diffusion_NS_` called with `kk[0][:,0,0], kk[1][0,:,0], kk[2][0,0,:]` (line 41).  The state is
`(du, p_hat)`; real and imaginary parts are assigned separately. -/
def cythonPressureNS (u_hat : SArr 3 (Ix3 n0 n1 n2)) (nu : ℝ) (ksq : Ix3 n0 n1 n2 → ℝ) (K : KList3 n0 n1 n2)
    (kk : Fin 3 → Ix3 n0 n1 n2 → ℝ) (s : SArr 3 (Ix3 n0 n1 n2) × (Ix3 n0 n1 n2 → ℂ)) :
    SArr 3 (Ix3 n0 n1 n2) × (Ix3 n0 n1 n2 → ℂ) :=
  forRange n0 (fun i =>
    let k0 := K.kx (i, 0, 0)
    forRange n1 fun j =>
      let k1 := K.ky (0, j, 0)
      forRange n2 fun k s =>
        let k2 := K.kz (0, 0, k)
        pressureCellCython k0 k1 k2 u_hat nu ksq kk (i, j, k) s) s

/-- Loop body of numba_module.py:156-161 and pythran_maths.py:128-133. -/
noncomputable def pressureCellNumba (k0 k1 k2 : ℝ) (u_hat : SArr 3 (Ix3 n0 n1 n2)) (nu : ℝ) (ksq : Ix3 n0 n1 n2 → ℝ)
    (kk : Fin 3 → Ix3 n0 n1 n2 → ℝ) (p : Ix3 n0 n1 n2) (s : SArr 3 (Ix3 n0 n1 n2) × (Ix3 n0 n1 n2 → ℂ)) :
    SArr 3 (Ix3 n0 n1 n2) × (Ix3 n0 n1 n2 → ℂ) :=
  let z := nu * ksq p
  let du := s.1
  let ph := Function.update s.2 p (du 0 p * kk 0 p + du 1 p * kk 1 p + du 2 p * kk 2 p)
  let du := wr du 0 p (du 0 p - (ph p * k0 + u_hat 0 p * z))
  let du := wr du 1 p (du 1 p - (ph p * k1 + u_hat 1 p * z))
  let du := wr du 2 p (du 2 p - (ph p * k2 + u_hat 2 p * z))
  (du, ph)

/-- numba_module.py:149-162, pythran_maths.py:122-134 `add_pressure_diffusion_NS_`. -/
noncomputable def numbaPressureNS (u_hat : SArr 3 (Ix3 n0 n1 n2)) (nu : ℝ) (ksq : Ix3 n0 n1 n2 → ℝ) (K : KList3 n0 n1 n2)
    (kk : Fin 3 → Ix3 n0 n1 n2 → ℝ) (s : SArr 3 (Ix3 n0 n1 n2) × (Ix3 n0 n1 n2 → ℂ)) :
    SArr 3 (Ix3 n0 n1 n2) × (Ix3 n0 n1 n2 → ℂ) :=
  forRange n0 (fun i =>
    let k0 := K.kx (i, 0, 0)
    forRange n1 fun j =>
      let k1 := K.ky (0, j, 0)
      forRange n2 fun k s =>
        let k2 := K.kz (0, 0, k)
        pressureCellNumba k0 k1 k2 u_hat nu ksq kk (i, j, k) s) s

/-- Wavenumber list in two dimensions with shapes `(n0,1)` and `(1,n1)`. -/
structure KList2 (n0 n1 : ℕ) where
  kx : Fin n0 × Fin 1 → ℝ
  ky : Fin 1 × Fin n1 → ℝ

/-- numpy broadcasting. -/
def KList2.full (K : KList2 n0 n1) : Fin 2 → Fin n0 × Fin n1 → ℝ := ![fun p => K.kx (p.1, 0), fun p => K.ky (0, p.2)]

/-- Loop body of cython_solvers.in:122-126. -/
noncomputable def pressureCell2D (k0 k1 : ℝ) (u_hat : SArr 2 (Fin n0 × Fin n1)) (nu : ℝ) (ksq : Fin n0 × Fin n1 → ℝ)
    (kk : Fin 2 → Fin n0 × Fin n1 → ℝ) (p : Fin n0 × Fin n1) (s : SArr 2 (Fin n0 × Fin n1) × (Fin n0 × Fin n1 → ℂ)) :
    SArr 2 (Fin n0 × Fin n1) × (Fin n0 × Fin n1 → ℂ) :=
  let z := nu * ksq p
  let du := s.1
  let ph := Function.update s.2 p (du 0 p * kk 0 p + du 1 p * kk 1 p)
  let du := wr du 0 p (du 0 p - (ph p * k0 + u_hat 0 p * z))
  let du := wr du 1 p (du 1 p - (ph p * k1 + u_hat 1 p * z))
  (du, ph)

/-- cython_solvers.in:106-127 `add_pressure_diffusion_NS2D`. -/
noncomputable def cythonPressureNS2D (u_hat : SArr 2 (Fin n0 × Fin n1)) (nu : ℝ) (ksq : Fin n0 × Fin n1 → ℝ) (K : KList2 n0 n1)
    (kk : Fin 2 → Fin n0 × Fin n1 → ℝ) (s : SArr 2 (Fin n0 × Fin n1) × (Fin n0 × Fin n1 → ℂ)) :
    SArr 2 (Fin n0 × Fin n1) × (Fin n0 × Fin n1 → ℂ) :=
  forRange n0 (fun i =>
    let k0 := K.kx (i, 0)
    forRange n1 fun j s =>
      let k1 := K.ky (0, j)
      pressureCell2D k0 k1 u_hat nu ksq kk (i, j) s) s

/-- Loop body of cython_solvers.in:98-103. -/
noncomputable def pressureCellBq (k0 k1 : ℝ) (ur_hat : SArr 2 (Fin n0 × Fin n1) × (Fin n0 × Fin n1 → ℂ))
    (kk : Fin 2 → Fin n0 × Fin n1 → ℝ) (ksq : Fin n0 × Fin n1 → ℝ) (nu Ri Pr : ℝ) (p : Fin n0 × Fin n1)
    (s : (SArr 2 (Fin n0 × Fin n1) × (Fin n0 × Fin n1 → ℂ)) × (Fin n0 × Fin n1 → ℂ)) :
    (SArr 2 (Fin n0 × Fin n1) × (Fin n0 × Fin n1 → ℂ)) × (Fin n0 × Fin n1 → ℂ) :=
  let z := nu * ksq p
  let du := s.1.1
  let dr := s.1.2
  let ph := Function.update s.2 p (du 0 p * kk 0 p + du 1 p * kk 1 p - Ri * ur_hat.2 p * kk 1 p)
  let du := wr du 0 p (du 0 p - (ph p * k0 + ur_hat.1 0 p * z))
  let du := wr du 1 p (du 1 p - (ph p * k1 + ur_hat.1 1 p * z + Ri * ur_hat.2 p))
  let dr := Function.update dr p (dr p - ur_hat.2 p * z / Pr)
  ((du, dr), ph)

/-- cython_solvers.in:82-104 `add_pressure_diffusion_Bq2D`; the arrays with three rows are pairs (rows 0-1, row 2) as in
`Periodic.add_pressure_diffusionBq`. -/
noncomputable def cythonPressureBq2D (ur_hat : SArr 2 (Fin n0 × Fin n1) × (Fin n0 × Fin n1 → ℂ)) (kk : Fin 2 → Fin n0 × Fin n1 → ℝ)
    (K : KList2 n0 n1) (ksq : Fin n0 × Fin n1 → ℝ) (nu Ri Pr : ℝ)
    (s : (SArr 2 (Fin n0 × Fin n1) × (Fin n0 × Fin n1 → ℂ)) × (Fin n0 × Fin n1 → ℂ)) :
    (SArr 2 (Fin n0 × Fin n1) × (Fin n0 × Fin n1 → ℂ)) × (Fin n0 × Fin n1 → ℂ) :=
  forRange n0 (fun i =>
    let k0 := K.kx (i, 0)
    forRange n1 fun j s =>
      let k1 := K.ky (0, j)
      pressureCellBq k0 k1 ur_hat kk ksq nu Ri Pr (i, j) s) s

/-- KMM.py:466-470 `compute_vw`, numpy: rows 1 and 2 of `u_hat` are overwritten. -/
noncomputable def numpyComputeVW {κ : Type*} (u_hat : SArr 3 κ) (f g : κ → ℂ) (kk : Fin 2 → κ → ℝ) : SArr 3 κ :=
  let u := Function.update u_hat 1 fun p => -Complex.I * (kk 0 p * f p - kk 1 p * g p)
  Function.update u 2 fun p => -Complex.I * (kk 1 p * f p + kk 0 p * g p)

/-- cython_solvers.in:129-145, numba_module.py:164-171, pythran_maths.py:138-144 `compute_vw`. -/
noncomputable def compiledComputeVW (u_hat : SArr 3 (Ix3 n0 n1 n2)) (f g : Ix3 n0 n1 n2 → ℂ) (kk : Fin 2 → Ix3 n0 n1 n2 → ℝ) :
    SArr 3 (Ix3 n0 n1 n2) :=
  loop3D (fun p u =>
    let u := wr u 1 p (-Complex.I * (kk 0 p * f p - kk 1 p * g p))
    wr u 2 p (-Complex.I * (kk 1 p * f p + kk 0 p * g p))) u_hat

/-- KMM.py:242-246 `mult_K1j`, numpy. -/
noncomputable def numpyMultK1j (K : KList3 n0 n1 n2) (a : Ix3 n0 n1 n2 → ℂ) (f : SArr 2 (Ix3 n0 n1 n2)) : SArr 2 (Ix3 n0 n1 n2) :=
  let f := Function.update f 0 fun p => Complex.I * K.full 2 p * a p
  Function.update f 1 fun p => -Complex.I * K.full 1 p * a p

/-- Loop body of cython_maths.in:161-162. -/
noncomputable def multCell (ky kz : ℝ) (a : Ix3 n0 n1 n2 → ℂ) (p : Ix3 n0 n1 n2) (f : SArr 2 (Ix3 n0 n1 n2)) : SArr 2 (Ix3 n0 n1 n2) :=
  let f := wr f 0 p (Complex.I * kz * a p)
  wr f 1 p (-Complex.I * ky * a p)

/-- cython_maths.in:149-167, numba_module.py:173-184, pythran_maths.py:147-153 `mult_K1j`. -/
noncomputable def compiledMultK1j (K : KList3 n0 n1 n2) (a : Ix3 n0 n1 n2 → ℂ) (f : SArr 2 (Ix3 n0 n1 n2)) : SArr 2 (Ix3 n0 n1 n2) :=
  forRange n0 (fun i =>
    forRange n1 fun j =>
      let ky := K.ky (0, j, 0)
      forRange n2 fun k f =>
        let kz := K.kz (0, 0, k)
        multCell ky kz a (i, j, k) f) f

/-- KMM.py:398-401 `assembleAB`, numpy. -/
noncomputable def numpyAssembleAB {κ : Type*} (_H0 H H1 : κ → ℂ) : κ → ℂ := fun p => 1.5 * H p - 0.5 * H1 p

/-- cython_solvers.in:27-37 `assembleAB_KMM`. -/
noncomputable def cythonAssembleAB {n n0 n1 n2 : ℕ} (H0 H H1 : Ix4 n n0 n1 n2 → ℂ) : Ix4 n n0 n1 n2 → ℂ :=
  loop4D (fun p H0 => Function.update H0 p (1.5 * H p - 0.5 * H1 p)) H0

end Kernels

end SpectralDNS.Opt

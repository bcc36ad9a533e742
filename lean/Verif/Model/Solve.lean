import Mathlib.Algebra.BigOperators.Fin
import Verif.Model.Integrators

/-!
# The time loop `spectralDNS.solve` and the output class `HDF5File`
-/

namespace SpectralDNS.Solve

/-! ## h5io/HDF5File.py -/

/-- What is on disk in the checkpoint file: one data set per level and the two attributes.  `D` is the stored data of one
level (all arrays of that level together).  -/
structure CFile (D : Type*) where
  levels : ℕ → Option D
  tstep : ℕ
  t : ℝ

/-- File operations in the order in which they reach the disk.  The writing of one level by `ShenfunFile.write`
(one data set per field component) is simplified to a single operation. -/
inductive FileOp (D : Type*) where
  | truncC
  | truncW
  | writeResult (tstep : ℕ) (data : D)
  | writeLevel (level : ℕ) (data : D)
  | setTstep (tstep : ℕ)
  | setT (t : ℝ)

/-- The two files. -/
structure Disk (D : Type*) where
  c : CFile D
  w : List (ℕ × D)

noncomputable def FileOp.apply {D : Type*} (d : Disk D) : FileOp D → Disk D
  | .truncC => { d with c := ⟨fun _ => none, 0, 0⟩ }
  | .truncW => { d with w := [] }
  | .writeResult n x => { d with w := d.w ++ [(n, x)] }
  | .writeLevel l x => { d with c := { d.c with levels := Function.update d.c.levels l (some x) } }
  | .setTstep n => { d with c := { d.c with tstep := n } }
  | .setT t => { d with c := { d.c with t := t } }

/-- The object: `cfile is None`, `wfile is None` and the files (h5io/HDF5File.py:57-62). -/
structure H5 (D : Type*) where
  cfile : Bool
  wfile : Bool
  disk : Disk D

/-- The parameters used by the loop and by the output (config.py:164-209).  `write_result` and `checkpoint` are positive
integers (the default 1e8 is a float with the same remainders); `truncate` is `filemode == 'w'`. -/
structure Params where
  t : ℝ
  dt : ℝ
  T : ℝ
  tstep : ℕ
  write_result : ℕ
  checkpoint : ℕ
  truncate : Bool

variable {S C D : Type*}

/-- A solver as seen by the loop.  `S` is the context (the primary variable among others), `C` the closure of the
integrator.  `integrate` returns `none` when it raises.  `update` and `regression_test` are user callbacks, here not allowed to change the
parameters (see DESIGN.md).  `end_of_tstep` may change the time step and the context only, like all the ones in the code
(solvers/NS.py:112-122, solvers/spectralinit.py:56-62, solvers/KMM.py:147-155).  `killed n` tells whether the kill file is
found during the output of step `n`. -/
structure Solver (S C D : Type*) where
  getintegrator : S → C
  integrate : Params → S → C → Option (S × C × ℝ × ℝ)
  update : Params → S → S
  update_components : S → S
  results : S → D
  levels : List (ℕ × (S → D))
  end_of_tstep : Params → S → ℝ × S × Bool
  regression_test : Params → S → S
  killed : ℕ → Bool

/-- The file operations of the first call (h5io/HDF5File.py:65-76).  Creating the attributes overwrites existing ones, also
when the file is appended to. -/
noncomputable def openOps (p : Params) (h : H5 D) : List (FileOp D) :=
  (if h.cfile then [] else (if p.truncate then [FileOp.truncC] else []) ++ [.setTstep 0, .setT 0]) ++
    (if h.wfile then [] else if p.truncate then [.truncW] else [])

/-- h5io/HDF5File.py:78-80; the components are updated (in the context) before writing. -/
def resultOps (sv : Solver S C D) (p : Params) (s : S) : List (FileOp D) :=
  if p.tstep % p.write_result = 0 then [.writeResult p.tstep (sv.results (sv.update_components s))] else []

/-- The context after h5io/HDF5File.py:78-80. -/
def resultState (sv : Solver S C D) (p : Params) (s : S) : S := if p.tstep % p.write_result = 0 then sv.update_components s else s

/-- h5io/HDF5File.py:83-89: for each level the data and then, in a separate opening of the file, the two attributes. -/
def checkpointOps (sv : Solver S C D) (p : Params) (s : S) : List (FileOp D) :=
  if p.tstep % p.checkpoint = 0 ∨ sv.killed p.tstep = true then
    sv.levels.flatMap fun lv => [.writeLevel lv.1 (lv.2 s), .setTstep p.tstep, .setT p.t]
  else []

/-- All file operations of one call of `update`. -/
noncomputable def updateOps (sv : Solver S C D) (p : Params) (s : S) (h : H5 D) : List (FileOp D) :=
  openOps p h ++ resultOps sv p s ++ checkpointOps sv p (resultState sv p s)

/-- h5io/HDF5File.py:64-92 `update`; the result tells whether the process exits (line 92). -/
noncomputable def h5update (sv : Solver S C D) (p : Params) (s : S) (h : H5 D) : S × H5 D × Bool :=
  (resultState sv p s, ⟨true, true, (updateOps sv p s h).foldl FileOp.apply h.disk⟩, sv.killed p.tstep)

/-- h5io/HDF5File.py:101-105 `close`: `self.cfile.f` raises `AttributeError` when no file was created. -/
def h5close (h : H5 D) : Option (H5 D) := if h.cfile ∧ h.wfile then some h else none

/-- h5io/HDF5File.py:107-120 `check_if_kill` on `n + 1` ranks: `found r` tells whether rank `r` sees the file in its directory listing,
`present` whether the file exists when rank 0 removes it (`os.remove` raises otherwise, modelled by `none`). -/
def checkIfKill {n : ℕ} (found : Fin (n + 1) → Bool) (present : Bool) (rank : Fin (n + 1)) : Option Bool :=
  let collective := ∑ r, (if found r then 1 else 0)
  if collective > 0 then
    if rank = 0 then (if present then some true else none)
    else some true
  else some false

/-- The output of one step on one of several ranks: `update` with the kill flag of `check_if_kill`; `none` when that raises, after the
results but before the checkpoint have been written (h5io/HDF5File.py:64-92). -/
noncomputable def rankUpdate {n : ℕ} (sv : Solver S C D) (found : Fin (n + 1) → Bool) (present : Bool) (rank : Fin (n + 1)) (p : Params)
    (s : S) (h : H5 D) : Option (S × H5 D × Bool) :=
  (checkIfKill found present rank).map fun k => h5update { sv with killed := fun _ => k } p s h

/-! ## __init__.py -/

/-- Everything the loop works on; `took` is a history variable, `outs` records parameters and context at the
calls of `hdf5file.update`. -/
structure St (S C D : Type*) where
  p : Params
  s : S
  c : C
  h5 : H5 D
  took : List ℝ
  outs : List (Params × S)

/-- How the loop ends: by its guard or the end-of-step hook, by `sys.exit` (kill file), by an exception of the integrator;
`timeout` when the fuel of the model is used up. -/
inductive Outcome (S C D : Type*) where
  | finished (st : St S C D)
  | exited (st : St S C D)
  | raised (st : St S C D)
  | timeout

/-- One pass of the loop body (__init__.py:96-112), up to the break: the state and whether to go on
(`none` = `sys.exit`). -/
noncomputable def afterIntegrate (sv : Solver S C D) (st : St S C D) (r : S × C × ℝ × ℝ) : St S C D × Option Bool :=
  let p : Params := { st.p with dt := r.2.2.1 }
  let p : Params := { p with t := p.t + r.2.2.2 }
  let p : Params := { p with tstep := p.tstep + 1 }
  let s := sv.update p r.1
  let o := h5update sv p s st.h5
  let took := st.took ++ [r.2.2.2]
  let outs := st.outs ++ [(p, s)]
  if o.2.2 then
    (⟨p, o.1, r.2.1, o.2.1, took, outs⟩, none)
  else
    let e := sv.end_of_tstep p o.1
    (⟨{ p with dt := e.1 }, e.2.1, r.2.1, o.2.1, took, outs⟩, some (!e.2.2))

open Classical in
/-- The `while` loop of __init__.py:94-112.  Profiling is not modelled. -/
noncomputable def loop (sv : Solver S C D) : ℕ → St S C D → Outcome S C D
  | 0, _ => .timeout
  | fuel + 1, st =>
    if st.p.t + st.p.dt ≤ st.p.T + 1e-12 then
      match sv.integrate st.p st.s st.c with
      | none => .raised st
      | some r =>
        match afterIntegrate sv st r with
        | (st', none) => .exited st'
        | (st', some false) => .finished st'
        | (st', some true) => loop sv fuel st'
    else .finished st

/-- How `solve` ends. -/
inductive Result (S C D : Type*) where
  | returned (st : St S C D)
  | crashedInClose (st : St S C D)
  | exited (st : St S C D)
  | raised (st : St S C D)
  | timeout

/-- __init__.py:69-123 `solve`.  Timer output and profiling are not modelled (the timer is in `Model/Utilities.lean`). -/
noncomputable def solve (sv : Solver S C D) (fuel : ℕ) (p : Params) (s : S) (h5 : H5 D) : Result S C D :=
  let c := sv.getintegrator s
  let dt_in := p.dt
  match loop sv fuel ⟨p, s, c, h5, [], []⟩ with
  | .timeout => .timeout
  | .raised st => .raised st
  | .exited st => .exited st
  | .finished st =>
    let p : Params := { st.p with dt := dt_in }
    let st : St S C D := { st with p := p, s := sv.regression_test p st.s }
    match h5close st.h5 with
    | none => .crashedInClose st
    | some h => .returned { st with h5 := h }

/-! ## End-of-step hooks -/

open Classical in
/-- solvers/NS.py:112-122 `end_of_tstep` (also used by NS2D, VV, MHD, Bq2D). -/
noncomputable def endPeriodic (p : Params) (s : S) : ℝ × S × Bool :=
  if |p.t - p.T| < 1e-12 then (p.dt, s, true)
  else if |p.t + p.dt - p.T| < 1e-12 ∨ p.t + p.dt ≥ p.T + 1e-12 then (p.T - p.t, s, false)
  else (p.dt, s, false)

/-- solvers/KMM.py:147-155 `end_of_tstep` and solvers/spectralinit.py:56-62 (where `rotate` is the identity). -/
def endChannel (rotate : S → S) (p : Params) (s : S) : ℝ × S × Bool := (p.dt, rotate s, false)

/-- The integrators of `Model/Integrators.lean` as used by the periodic solvers: the context is the primary variable, which
is also the array `u0` of the closure (integrators.py:177-239). -/
noncomputable def methodIntegrate {V : Type*} [AddCommGroup V] [Module ℝ V] (F : V → V → V) (est : V → V → V → PyF)
    (fuel : ℕ) (m : Method) (p : Params) (s : V) (c : Closure V) : Option (V × Closure V × ℝ × ℝ) :=
  (integrate F est fuel m p.dt p.tstep { c with u0 := s }).map fun r => (r.1.u0, r.1, r.2.1, r.2.2)

end SpectralDNS.Solve

import Verif.Model.Integrators
import Mathlib.Analysis.SpecialFunctions.Pow.Real
import Mathlib.Analysis.SpecialFunctions.Sqrt
import Mathlib.Data.Complex.Basic
import Mathlib.Analysis.Complex.Norm
import Mathlib.Data.Fintype.Card
import Mathlib.Data.Finset.Lattice.Fold

/-!
# Error estimate of adaptiveRK on several MPI ranks (`spectralDNS/maths/integrators.py:86-138`)

The modes of the global spectral array are the index type `ι`; mode `i` is stored on rank `owner i`.  Every rank executes the
same lines on its own part.  `nc + 1` is the number of components (`u0.shape[0]`).

MPI: `comm.reduce(x)` gives the sum on rank 0 and `None` elsewhere, `comm.bcast(x, root=0)` gives everybody the value of rank 0.
`context.T.shape(True)` is the local shape of the spectral arrays of one component (the same call is used in NS.py:42 to allocate local
arrays), so its product is the number of locally stored modes.  Real arithmetic, no rounding.
-/

namespace SpectralDNS

variable {ι : Type*} [Fintype ι] {R nc : ℕ}

/-- The arrays `err`, `u0`, `u0_new` of the whole machine. -/
structure ErrData (ι : Type*) (nc : ℕ) where
  err : Fin (nc + 1) → ι → ℂ
  u0 : Fin (nc + 1) → ι → ℂ
  new : Fin (nc + 1) → ι → ℂ

/-- `sc[:] = aTOL + np.maximum(np.abs(u0), np.abs(u0_new))*rTOL`, integrators.py:87. -/
noncomputable def ErrData.sc (aTOL rTOL : ℝ) (d : ErrData ι nc) (k : Fin (nc + 1)) (i : ι) : ℝ :=
  aTOL + max ‖d.u0 k i‖ ‖d.new k i‖ * rTOL

/-- Local part `np.sum(np.power(np.abs(err[k]/sc[k]), 2))` on rank `r`, integrators.py:92. -/
noncomputable def localSum (aTOL rTOL : ℝ) (owner : ι → Fin (R + 1)) (d : ErrData ι nc) (k : Fin (nc + 1))
    (r : Fin (R + 1)) : ℝ :=
  ∑ i : {i // owner i = r}, ‖d.err k i / (d.sc aTOL rTOL k i : ℂ)‖ ^ 2

/-- `comm.reduce(x)`: sum on rank 0, `None` on the others. -/
noncomputable def mpiReduce (x : Fin (R + 1) → ℝ) (r : Fin (R + 1)) : Option ℝ := if r = 0 then some (∑ r, x r) else none

/-- `comm.bcast(x, root=0)`. -/
def mpiBcast {α : Type*} (x : Fin (R + 1) → α) (_ : Fin (R + 1)) : α := x 0

/-- `np.array(context.T.shape(True)).prod()` on rank `r`. -/
noncomputable def localSize (owner : ι → Fin (R + 1)) (r : Fin (R + 1)) : ℕ :=
  Fintype.card {i // owner i = r}

/-- `est` on rank `r` after integrators.py:89-99. -/
noncomputable def rankEst (aTOL rTOL : ℝ) (owner : ι → Fin (R + 1)) (d : ErrData ι nc) (r : Fin (R + 1)) : PyF :=
  -- lines 90-92; storing `None` in a float array gives nan
  let nsquared : Fin (R + 1) → Fin (nc + 1) → Option ℝ := fun r k => mpiReduce (localSum aTOL rTOL owner d k) r
  -- lines 93-97, executed on rank 0 only
  let estToBcast : Fin (R + 1) → Option PyF := fun r =>
    if r = 0 then
      some (.fin (Finset.univ.sup' Finset.univ_nonempty (fun k => Real.sqrt ((nsquared r k).getD 0)) /
        Real.sqrt (localSize owner r)))
    else none
  -- lines 98-99
  match mpiBcast estToBcast r with
  | some e => e
  | none => .nan

/-- How a collective retry loop can end. -/
inductive SpmdOutcome (R : ℕ) where
  /-- some ranks repeat the step (and wait in `comm.reduce`) while others have left the loop -/
  | deadlock
  /-- all ranks leave the loop; next and taken size on every rank -/
  | done (next took : Fin (R + 1) → ℝ)

open Classical in
/-- The retry loop of adaptiveRK as executed by all ranks together (integrators.py:60-138), as far as step sizes are concerned:
`data n dts` are the arrays of the `n`-th trial when the ranks use the sizes `dts`.  Every rank keeps its own `facmax` and `dt`
and takes its own decision. -/
noncomputable def spmdLoop (aTOL rTOL : ℝ) (owner : ι → Fin (R + 1)) (errOrder : ℕ)
    (data : ℕ → (Fin (R + 1) → ℝ) → ErrData ι nc) :
    ℕ → ℕ → (Fin (R + 1) → ℝ) → (Fin (R + 1) → ℝ) → Option (SpmdOutcome R)
  | 0, _, _, _ => none
  | fuel + 1, n, facmax, dt =>
    let est := rankEst aTOL rTOL owner (data n dt)
    let dt' := fun r => dt r * (stepFactor (facmax r) errOrder (est r)).toReal
    if ∀ r, PyF.Gt (est r) (.fin 1) then
      spmdLoop aTOL rTOL owner errOrder data fuel (n + 1) (fun _ => 1) dt'
    else if ∀ r, ¬ PyF.Gt (est r) (.fin 1) then some (.done dt' dt)
    else some .deadlock

end SpectralDNS

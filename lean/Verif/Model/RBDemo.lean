import Verif.Model.RBCheb
import Verif.Model.Utilities

/-!
# demo/RayleighBenard.py: the start, the update callback and the statistics

Restarts (`init_from_file`, RayleighBenard.py:179-210) are in `Model/RayleighBenard.lean`.
-/

namespace SpectralDNS.Channel

open Polynomial Periodic

/-! ## Which wall `bc=(1, 0)` means -/

/-- shenfun's reading of `bc=(a, b)` (KMM_RB.py:18, KMMRK3_RB.py:18): `a` at the wall `x = 1` or `a` at the wall `x = -1`.  shenfun is
not part of the repository; the formulas with `phi_hat[-2]` and `phi_hat[-1]` in the solvers are written for the first, `initialize` for
the second. -/
inductive BcOrder
  | upper
  | lower

/-- The boundary coefficients `phi_hat[-2]`, `phi_hat[-1]` rearranged as the values at `x = 1` and `x = -1`. -/
def physical {κ D : Type*} : BcOrder → Temp κ D → Temp κ D
  | .upper, T => T
  | .lower, T => ⟨T.d, T.q, T.p⟩

/-- `get_context` of KMM_RB (KMM_RB.py:15-55) with `bc=(1, 0)`: the boundary coefficients are `(1, 0)` in either order, but
`FRBp.backward` in `DivRBConvection` (KMM_RB.py:108) depends on it. -/
noncomputable def codeRB {κ P : Type*} [DecidableEq κ] (o : BcOrder) (q qT : Quad) (n : ℕ) (c : Ctx κ (Fin n → ℂ) (Fin (n + 2) → ℂ)) (kappa : ℝ)
    (T : Space κ P) : RBCtx κ (Fin n → ℂ) (Fin (n + 2) → ℂ) :=
  chebRB (1, 0) q qT n c kappa (fun t u => prodBwall q n T (physical o t) u) (fun t v => prodDwall q n T (physical o t) v)

/-! ## The start -/

/-- The boundary coefficients of the space `RB`. -/
noncomputable def bcTemp {κ : Type*} [DecidableEq κ] (n : ℕ) (zero : κ) : Temp κ (Fin (n + 2) → ℂ) := ⟨0, fun k => if k = zero then 1 else 0, 0⟩

/-- `phi.forward(phi_hat)` (RayleighBenard.py:21, 24): the boundary part is subtracted, the rest projected on the Dirichlet functions and
the boundary coefficients are set; quadrature as in `bwdT`. -/
noncomputable def forwardRB {κ P : Type*} [DecidableEq κ] (o : BcOrder) (n : ℕ) (T : Space κ P) (zero : κ) (a : Fin (n + 4) → P → ℝ) :
    Temp κ (Fin (n + 2) → ℂ) :=
  let b := physical o (bcTemp n zero)
  ⟨fun k => forwardWall .GC (n + 4) phi fun j =>
    T.forward (a j) k - (tempPoly (b.d k) (b.p k) (b.q k)).eval ((quadPoint .GC (n + 4) j : ℝ) : ℂ),
   (bcTemp n zero).p, (bcTemp n zero).q⟩

/-- `phi_hat.mask_nyquist()` (RayleighBenard.py:22) on the whole array, with the boundary coefficients. -/
def maskTemp {κ D : Type*} [Zero D] (mask : κ → Bool) (T : Temp κ D) : Temp κ D :=
  ⟨fun k => if mask k then T.d k else 0, fun k => if mask k then T.p k else 0, fun k => if mask k then T.q k else 0⟩

/-- RayleighBenard.py:20; `r` are the draws of `np.random.randn`, `X[0]` are the points of `FST`, i.e. of the quadrature `q`. -/
noncomputable def perturbed {P : Type*} (q : Quad) (n : ℕ) (r : Fin (n + 4) → P → ℝ) : Fin (n + 4) → P → ℝ := fun j p =>
  let x := quadPoint q (n + 4) j
  0.5 * (1 - x) + 0.005 * r j p * (1 - x) * (1 + x)

/-- `initialize` (RayleighBenard.py:15-28): the value of `phi_hat`. -/
noncomputable def initializeRB {κ P : Type*} [DecidableEq κ] (o : BcOrder) (q : Quad) (n : ℕ) (T : Space κ P) (mask : κ → Bool) (zero : κ)
    (r : Fin (n + 4) → P → ℝ) : Temp κ (Fin (n + 2) → ℂ) :=
  let phi_hat := forwardRB o n T zero (perturbed q n r)
  let phi_hat := maskTemp mask phi_hat
  let phi := bwdT T (physical o phi_hat)
  forwardRB o n T zero phi

/-- The state of KMM_RB after `get_context` and `initialize` (RayleighBenard.py:26-28): everything else is as allocated. -/
noncomputable def startRB {κ D B : Type*} [AddCommGroup B] [AddCommGroup D] (phi_hat : Temp κ D) : RBSt κ B D :=
  ⟨⟨⟨0, 0, 0⟩, 0, ⟨0, 0, 0⟩, ⟨0, 0, 0⟩, ⟨0, 0, 0⟩, ⟨0, 0, 0⟩⟩, phi_hat, phi_hat, phi_hat, 0, 0⟩

end SpectralDNS.Channel

namespace SpectralDNS.RBDemo

/-! ## The callback -/

/-- The parameters `compute_energy`, `sample_stats`, `plot_result` (RayleighBenard.py:222-227) and whether this is rank 0. -/
structure UpdateParams where
  compute_energy : ℤ
  sample_stats : ℤ
  plot_result : ℤ
  root : Bool

/-- How `update` may end the program. -/
inductive Stop
  /-- `ZeroDivisionError` of `%` -/
  | zeroDivision
  /-- `im1` is `None` (line 59) -/
  | noFigure
  /-- `sys.exit(1)` (line 82) -/
  | diverging

/-- Python's `a % b` on integers. -/
def pyMod (a b : ℤ) : Except Stop ℤ := if b = 0 then .error .zeroDivision else .ok (a.fmod b)

/-- What `update` reads and changes: the arrays `c.U`, `c.phi` (their contents, `α`), whether the figures exist, and the samples handed to
`solver.stats`, each with its step. -/
structure DemoSt (α : Type) where
  held : α
  figure : Bool
  samples : List (ℤ × α)

/-- `update` (RayleighBenard.py:32-87).  `cur` are velocity and temperature of the coefficients now, `bad` whether the energies computed
from the arrays exceed the limit or are not numbers (line 79).  Not modelled: drawing and printing. -/
def update {α : Type} (p : UpdateParams) (bad : α → Bool) (tstep : ℤ) (cur : α) (s : DemoSt α) : Except Stop (DemoSt α) := do
  let m ← pyMod tstep p.compute_energy
  let refresh : Bool ← if m = 0 then pure true else do
    let m ← pyMod tstep p.sample_stats
    if m ≠ 0 then pure true else do
      let m ← pyMod tstep p.plot_result
      pure (decide (m = 0 ∧ p.plot_result > 0))
  let s := if refresh then { s with held := cur } else s
  let s := if tstep = 1 ∧ p.root ∧ p.plot_result > 0 then { s with figure := true } else s
  let m ← pyMod tstep p.plot_result
  if m = 0 ∧ p.root ∧ p.plot_result > 0 ∧ ¬ s.figure then throw .noFigure
  let m ← pyMod tstep p.compute_energy
  if m = 0 ∧ bad s.held then throw .diverging
  let m ← pyMod tstep p.sample_stats
  pure (if m = 0 then { s with samples := s.samples ++ [(tstep, s.held)] } else s)

/-- One pass of the time loop (__init__.py:87-118): `update`, then `hdf5file.update`, which may also refresh the arrays
(`update_components`, KMM_RB.py:58-61); `write` tells at which steps. -/
def pass {α : Type} (p : UpdateParams) (bad : α → Bool) (write : ℤ → Bool) (field : ℤ → α) (s : DemoSt α) (tstep : ℤ) : Except Stop (DemoSt α) := do
  let s ← update p bad tstep (field tstep) s
  pure (if write tstep then { s with held := field tstep } else s)

/-- The steps `t0+1, ..., t0+n` of a run. -/
def runFrom {α : Type} (p : UpdateParams) (bad : α → Bool) (write : ℤ → Bool) (field : ℤ → α) (t0 : ℤ) (s : DemoSt α) : ℕ → Except Stop (DemoSt α)
  | 0 => pure s
  | n + 1 => do
    let s ← runFrom p bad write field t0 s n
    pass p bad write field s (t0 + (n + 1))

/-! ## The statistics -/

open Utilities

/-- One sample: velocity and temperature by local wall-normal index and index in the plane. -/
structure SampleT (J : Type*) where
  U : Fin 3 → ℕ → J → ℝ
  phi : ℕ → J → ℝ

/-- The sums kept by one rank (RayleighBenard.py:91-104); `Pmean` is not used there and `base.Pmean` holds `phim`. -/
structure StatsT where
  base : Stats
  pp : ℕ → ℝ

/-- RayleighBenard.py:93-98. -/
def StatsT.init : StatsT := ⟨Stats.init, fun _ => 0⟩

variable {J : Type*} [Fintype J]

/-- RayleighBenard.py:118-128 (the call of `get_stats` is in `sampleAllT`). -/
def StatsT.add (st : StatsT) (x : SampleT J) : StatsT where
  base :=
    { num_samples := st.base.num_samples + 1
      Umean := fun i k => st.base.Umean i k + ∑ j, x.U i k j
      Pmean := fun k => st.base.Pmean k + ∑ j, x.phi k j
      UU := fun i k => st.base.UU i k + ∑ j, x.U (pair i).1 k j * x.U (pair i).2 k j }
  pp k := st.pp k + ∑ j, x.phi k j * x.phi k j

/-- The statistics file (RayleighBenard.py:106-115); `base.P` is `Average/phi`. -/
structure StatsFileT where
  base : StatsFile
  pp : ℕ → ℝ

/-- `get_stats` (RayleighBenard.py:130-153), the part written by one rank. -/
noncomputable def StatsT.write (st : StatsT) (rank N nJ : ℕ) (f : StatsFileT) : StatsFileT :=
  let Nd : ℝ := st.base.num_samples * nJ
  { base :=
      { num_samples := st.base.num_samples
        U := fun i k => if inSlice rank N k then st.base.Umean i (k - rank * N) / Nd else f.base.U i k
        P := fun k => if inSlice rank N k then st.base.Pmean (k - rank * N) / Nd else f.base.P k
        UU := fun i k => if inSlice rank N k then st.base.UU i (k - rank * N) / Nd else f.base.UU i k }
    pp := fun k => if inSlice rank N k then st.pp (k - rank * N) / Nd else f.pp k }

/-- `fromfile` (RayleighBenard.py:162-177) on one rank. -/
noncomputable def StatsT.fromfile (f : StatsFileT) (rank N nJ : ℕ) : StatsT :=
  let Nd : ℝ := f.base.num_samples * nJ
  { base :=
      { num_samples := f.base.num_samples
        Umean := fun i k => f.base.U i (rank * N + k) * Nd
        Pmean := fun k => f.base.P (rank * N + k) * Nd
        UU := fun i k => f.base.UU i (rank * N + k) * Nd }
    pp := fun k => f.pp (rank * N + k) * Nd }

/-- One rank's part of a global sample. -/
def SampleT.part (x : SampleT J) (rank N : ℕ) : SampleT J := ⟨fun i k => x.U i (rank * N + k), fun k => x.phi (rank * N + k)⟩

/-- `Stats.__call__` on all ranks (RayleighBenard.py:117-128). -/
noncomputable def sampleAllT (ranks N : ℕ) (x : SampleT J) (s : (ℕ → StatsT) × StatsFileT) : (ℕ → StatsT) × StatsFileT :=
  let st : ℕ → StatsT := fun r => (s.1 r).add (x.part r N)
  (st, (List.range ranks).foldl (fun f r => (st r).write r N (Fintype.card J) f) s.2)

/-- A sequence of samples. -/
noncomputable def sampleListT (ranks N : ℕ) (xs : List (SampleT J)) (s : (ℕ → StatsT) × StatsFileT) : (ℕ → StatsT) × StatsFileT :=
  xs.foldl (fun s x => sampleAllT ranks N x s) s

end SpectralDNS.RBDemo

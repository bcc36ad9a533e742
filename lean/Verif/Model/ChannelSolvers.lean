import Verif.Model.Solve
import Verif.Model.Channel
import Verif.Model.CoupledCheb
import Verif.Model.RayleighBenard
import Verif.Model.KMMr

/-!
# The channel solvers as seen by the time loop

`dt` of the context is `params.dt` (the modules read the global); the factorised matrices `la`, `solve`, `solveT` are those made by `get_context` and do
not change.  `upd` is what the user's `update` does to the velocity.  `update_components` fills the real arrays, which are not part of the state of the
models.  Without the kill file.
-/

namespace SpectralDNS.Solve

variable {D : Type*}

/-- The common part: `step dt` is what `integrate` does with the context, `upd` what `update` does, `rotate` what `end_of_tstep` does.  All of them return
`dt, dt` as next and taken step (KMM.py:516, KMMr.py:514, KMMRK3.py:174, Coupled.py:337, CoupledRK3.py:351, KMM_RB.py:161, KMMRK3_RB.py:128). -/
noncomputable def channelSolver {S : Type*} (step : ℝ → S → S) (upd rotate : S → S) (results : S → D) (levels : List (ℕ × (S → D))) : Solver S Unit D where
  getintegrator _ := ()
  integrate p s c := some (step p.dt s, c, p.dt, p.dt)
  update _ s := upd s
  update_components s := s
  results := results
  levels := levels
  end_of_tstep := endChannel rotate
  regression_test _ s := s
  killed _ := false

section
variable {κ B E P R : Type*} [AddCommGroup B] [Module ℂ B] [AddCommGroup E] [Module ℂ E] [AddCommGroup P] [Module ℂ P] [AddCommGroup R] [Module ℂ R]

/-- KMM (solvers/KMM.py:131-134, 147-155, 511-522): checkpoints `U_hat` and `U_hat0`. -/
noncomputable def kmmSolver [DecidableEq κ] (c : Channel.Ctx κ B E) (la : Channel.LA κ B E) (upd : Channel.Vel κ B E → Channel.Vel κ B E)
    (results : Channel.Vel κ B E → D) (store : Channel.Vel κ B E → D) : Solver (Channel.St κ B E) Unit D :=
  channelSolver (fun dt => Channel.integrate { c with dt := dt } la) (fun s => { s with U := upd s.U }) Channel.endOfTstep (fun s => results s.U)
    [(0, fun s => store s.U), (1, fun s => store s.U0)]

/-- KMMRK3 (solvers/KMMRK3.py:9, 45, 169-174): checkpoints `U_hat`; `end_of_tstep` of solvers/spectralinit.py:56-62. -/
noncomputable def kmmrk3Solver [DecidableEq κ] (c : Channel.Ctx κ B E) (la : Fin 3 → Channel.LA κ B E) (upd : Channel.Vel κ B E → Channel.Vel κ B E)
    (results : Channel.Vel κ B E → D) (store : Channel.Vel κ B E → D) : Solver (Channel.St3 κ B E) Unit D :=
  channelSolver (fun dt => Channel.integrate3 { c with dt := dt } la) (fun s => { s with U := upd s.U }) id (fun s => results s.U) [(0, fun s => store s.U)]

/-- KMMr (solvers/KMMr.py:132-137, 148-156, 509-520): as KMM with the wall-normal direction last. -/
noncomputable def kmmrSolver [DecidableEq κ] (c : KMMr.Ctx κ B E) (la : Channel.LA κ B E) (upd : KMMr.Vel κ B E → KMMr.Vel κ B E)
    (results : KMMr.Vel κ B E → D) (store : KMMr.Vel κ B E → D) : Solver (KMMr.St κ B E) Unit D :=
  channelSolver (fun dt => KMMr.integrate { c with dt := dt } la) (fun s => { s with U := upd s.U }) KMMr.endOfTstep (fun s => results s.U)
    [(0, fun s => store s.U), (1, fun s => store s.U0)]

/-- Coupled (solvers/Coupled.py:115-120, 131-139, 328-342): checkpoints velocity and pressure of two levels. -/
noncomputable def coupledSolver [DecidableEq κ] (c : Coupled.Ctx κ E P R) (sol : Channel.Vec κ E → Coupled.Vel κ E × (κ → P))
    (upd : Coupled.Vel κ E → Coupled.Vel κ E) (results : Coupled.Vel κ E → D) (store : Coupled.Vel κ E → (κ → P) → D) : Solver (Coupled.St κ E P) Unit D :=
  channelSolver (fun dt => Coupled.integrate { c with dt := dt } sol) (fun s => { s with U := upd s.U }) Coupled.endOfTstep (fun s => results s.U)
    [(0, fun s => store s.U s.pr), (1, fun s => store s.U0 s.pr0)]

/-- CoupledRK3 (solvers/CoupledRK3.py:123-127, 138-144, 343-356): checkpoints one level. -/
noncomputable def coupledrk3Solver (c : Coupled.Ctx κ E P R) (sol : Fin 3 → Channel.Vec κ E → Coupled.Vel κ E × (κ → P))
    (upd : Coupled.Vel κ E → Coupled.Vel κ E) (results : Coupled.Vel κ E → D) (store : Coupled.Vel κ E → (κ → P) → D) : Solver (Coupled.St3 κ E P) Unit D :=
  channelSolver (fun dt => Coupled.integrate3 { c with dt := dt } sol) (fun s => { s with U := upd s.U }) id (fun s => results s.U)
    [(0, fun s => store s.U s.pr)]

/-- KMM_RB (solvers/KMM_RB.py:48-53, 63-69, 156-167) with an `update` which changes no coefficients, as the one of the demo. -/
noncomputable def kmmrbSolver [DecidableEq κ] (r : Channel.RBCtx κ B E) (la : Channel.LA κ B E) (solveT : κ → E → E)
    (results store : Channel.Vel κ B E → Channel.Temp κ E → D) : Solver (Channel.RBSt κ B E) Unit D :=
  channelSolver (fun dt => Channel.integrateRB { r with c := { r.c with dt := dt } } la solveT) id Channel.endOfTstepRB (fun s => results s.s.U s.phi)
    [(0, fun s => store s.s.U s.phi), (1, fun s => store s.s.U0 s.phi0)]

/-- KMMRK3_RB (solvers/KMMRK3_RB.py:9, 44-48, 121-134) with an `update` which changes no coefficients. -/
noncomputable def kmmrk3rbSolver [DecidableEq κ] (r : Channel.RBCtx κ B E) (convT : Channel.Vel κ B E → Channel.Temp κ E → κ → E)
    (la : Fin 3 → Channel.LA κ B E) (solveT : Fin 3 → κ → E → E) (results store : Channel.Vel κ B E → Channel.Temp κ E → D) :
    Solver (Channel.RB3St κ B E) Unit D :=
  channelSolver (fun dt => Channel.integrateRB3 { r with c := { r.c with dt := dt } } convT la solveT) id id (fun s => results s.s.U s.phi)
    [(0, fun s => store s.s.U s.phi)]

end

end SpectralDNS.Solve

import Verif.Model.DealiasDirect
import Verif.Model.RBCheb
import Verif.Model.CoupledCheb

/-!
# The channel solvers with the 2/3-rule (`dealias='2/3-rule'`, the default, config.py:191-193)

KMM.py:48-54, KMM_RB.py:18-20 and KMMRK3_RB.py:18-20 call `get_dealiased(padding_factor=1, dealias_direct=True)` for every space; KMMRK3.py:13-14 uses the context of KMM.py; Coupled.py:43-49 and
CoupledRK3.py:45-51 do the same.  The modes along the walls are cut as in
`Model/DealiasDirect.lean`; that anything is cut in the wall-normal direction is not modelled.
-/

namespace SpectralDNS.Channel

open Periodic

/-- `mask` (KMM.py:46), `masked` is `params.mask_nyquist`. -/
noncomputable def nyquist (N : Fin 2 → ℕ) (masked : Bool) : Option (RModes N → ℝ) := if masked then some fun k => if nyquistMask N k then 1 else 0 else none

/-- The context of KMM (KMM.py:20-137) for `N[0] = n + 4` points between the walls and `N 0 × N 1` points along them, with the transforms `T` along the walls. -/
noncomputable def channelCtx {P : Type*} (q : Quad) (n : ℕ) {N : Fin 2 → ℕ} (T : Space (RModes N) P) (masked : Bool) (L : Fin 2 → ℝ) (hN : ∀ i, 0 < N i) (nu dt : ℝ)
    (kind : ConvKind) (Sk : Fin (n + 2) → ℂ) : Ctx (RModes N) (Fin n → ℂ) (Fin (n + 2) → ℂ) :=
  ⟨nu, dt, waveGrid N L hN, chebMats q n, nyquist N masked, convection kind (chebWall q n) T (waveGrid N L hN), Sk⟩

/-- The context of KMM_RB and KMMRK3_RB (KMM_RB.py:15-55, KMMRK3_RB.py:15-42) with the transforms `T` along the walls. -/
noncomputable def channelRB {P : Type*} (bc : ℝ × ℝ) (q qT : Quad) (n : ℕ) {N : Fin 2 → ℕ} (T : Space (RModes N) P) (masked : Bool) (L : Fin 2 → ℝ) (hN : ∀ i, 0 < N i)
    (nu kappa dt : ℝ) (kind : ConvKind) (Sk : Fin (n + 2) → ℂ) : RBCtx (RModes N) (Fin n → ℂ) (Fin (n + 2) → ℂ) :=
  chebRB bc q qT n (channelCtx q n T masked L hN nu dt kind Sk) kappa (prodBwall q n T) (prodDwall q n T)

end SpectralDNS.Channel

namespace SpectralDNS.Coupled

open Periodic Channel

/-- The context of Coupled and CoupledRK3 (Coupled.py:18-128) for `N[0] = n + 4`, with the transforms `T` along the walls. -/
noncomputable def coupledCtx {P : Type*} (q : Quad) (n : ℕ) {N : Fin 2 → ℕ} (T : Space (RModes N) P) (masked : Bool) (L : Fin 2 → ℝ) (hN : ∀ i, 0 < N i) (nu dt : ℝ)
    (kind : ConvKind) (Sk1 : RModes N → Fin (n + 2) → ℂ) : Ctx (RModes N) (Fin (n + 2) → ℂ) (Fin (n + 4) → ℂ) (Fin (n + 4) → ℂ) :=
  ⟨nu, dt, waveGrid N L hN, chebMats q n, nyquist N masked, fun U => convectionCoupled kind (chebWall q n) T (waveGrid N L hN) (asVel U), Sk1⟩

end SpectralDNS.Coupled

import Verif.Model.OrrSommerfeldr
import Verif.Props.KMMr
import Verif.Props.DxPositive

/-!
# C114: the Orr-Sommerfeld demo of KMMr
-/

namespace SpectralDNS.KMMr.OrrSommerfeld

open Polynomial
open SpectralDNS.Channel (Quad quadPoint psi phi chebWall chebMats fieldOf expandC LA vorticity)
open SpectralDNS.Channel.OrrSommerfeld (flowU flowV waveArr modeZ modeP modeM waves_modeP waves_modeM waves_modeZ velOS_eq)
open SpectralDNS.Periodic (RModes rspace waves scaledWaves)
open SpectralDNS.Spec.Field

variable {N : Fin 2 → ℕ}

/-- The coefficients are those of the other demo with the axes exchanged. -/
theorem velOS_rot (q : Quad) (n : ℕ) (L : Fin 2 → ℝ) (eps : ℝ) {m : ℕ} (v : Fin m → ℂ) (c : ℂ) (t : ℝ) :
    (velOS (N := N) q n L eps v c t).rot = Channel.OrrSommerfeld.velOS q n L eps v c t := rfl

/-- **C114 (start).**  The coefficients with which the run starts represent the flow of `initOS` at every point of the channel; it conserves mass
and does not move at the walls `z = -1, 1`. -/
theorem C114_start (q : Quad) (n : ℕ) (hN : ∀ i, 0 < N i) (h3 : 3 ≤ N 0) (L : Fin 2 → ℝ) (hL : L 0 = 2 * Real.pi) (hL1 : L 1 ≠ 0) (eps : ℝ) {m : ℕ}
    (hm : m ≤ n) (v : Fin m → ℂ) (c : ℂ) (t : ℝ) :
    let U := velOS (N := N) q n L eps v c t
    (∀ x y z, field2 q n L U x y z = -eps * (Complex.I * (expandC psi v).eval (z : ℂ) * Complex.exp (Complex.I * (x - c * t))).re ∧
      field0 q n L U x y z = (1 - z ^ 2) + eps * ((derivative (expandC psi v)).eval (z : ℂ) * Complex.exp (Complex.I * (x - c * t))).re ∧
      field1 q n L U x y z = 0) ∧
    DivergenceFree (field0 q n L U) (field1 q n L U) (field2 q n L U) ∧
    ∀ x y z, z = -1 ∨ z = 1 → field0 q n L U x y z = 0 ∧ field1 q n L U x y z = 0 ∧ field2 q n L U x y z = 0 := by
  intro U
  obtain ⟨h0, h1, h2⟩ := Channel.OrrSommerfeld.C88_start (N := N) q n hN h3 L hL hL1 eps hm v c t
  obtain ⟨hd, hw⟩ := Channel.OrrSommerfeld.C88_flow eps v c t
  have e2 : ∀ x y z, field2 q n L U x y z = flowU eps v c t z x y := fun x y z => congrFun (congrFun (congrFun h0 z) x) y
  have e0 : ∀ x y z, field0 q n L U x y z = flowV eps v c t z x y := fun x y z => congrFun (congrFun (congrFun h1 z) x) y
  have e1 : ∀ x y z, field1 q n L U x y z = 0 := fun x y z => congrFun (congrFun (congrFun h2 z) x) y
  refine ⟨fun x y z => ⟨e2 x y z, e0 x y z, e1 x y z⟩, fun x y z => ?_, fun x y z hz => ?_⟩
  · have := hd z x y
    rw [show field0 q n L U = fun x y z => flowV eps v c t z x y from by funext x y z; exact e0 x y z,
      show field1 q n L U = fun _ _ _ => 0 from by funext x y z; exact e1 x y z,
      show field2 q n L U = fun x y z => flowU eps v c t z x y from by funext x y z; exact e2 x y z]
    refine Eq.trans ?_ this
    rw [add_comm _ (dz _ x y z), ← add_assoc]
    rfl
  · obtain ⟨a, b, -, -⟩ := hw z x y hz
    exact ⟨(e0 x y z).trans b, e1 x y z, (e2 x y z).trans a⟩

/-- The mean of the flow of `initOS` does not depend on the time. -/
theorem mean (q : Quad) (n : ℕ) (hN : ∀ i, 0 < N i) (h3 : 3 ≤ N 0) (L : Fin 2 → ℝ) (hL : L 0 = 2 * Real.pi) (hL1 : L 1 ≠ 0) (eps : ℝ) {m : ℕ}
    (hm : m ≤ n) (v : Fin m → ℂ) (c : ℂ) (t : ℝ) :
    let U := velOS (N := N) q n L eps v c t
    U.u0 (Channel.waveGrid N L hN).zero = Pi.single 0 (1 / 2) ∧ ∀ k, U.u1 k = 0 := by
  intro U
  obtain ⟨A, B, -, -, hU⟩ := velOS_eq (N := N) q n hN h3 L hL hL1 eps hm v c t
  have hz : (Channel.waveGrid N L hN).zero = modeZ hN := by
    refine funext fun i => Fin.ext ?_
    fin_cases i <;> rfl
  have hu0 : U.u0 = _ := congrArg Channel.Vel.v hU
  have hu1 : U.u1 = _ := congrArg Channel.Vel.w hU
  refine ⟨?_, fun k => by rw [hu1]⟩
  have hP : modeZ hN ≠ modeP hN h3 := fun h => by
    have := (waves_modeP hN h3).1
    rw [← h, (waves_modeZ hN).1] at this
    exact zero_ne_one this
  have hM : modeZ hN ≠ modeM hN := fun h => by
    have := (waves_modeM hN h3).1
    rw [← h, (waves_modeZ hN).1] at this
    norm_num at this
  rw [hu0, hz]
  show waveArr hN h3 B (Pi.single 0 (1 / 2)) (modeZ hN) = _
  simp only [waveArr]
  rw [if_neg hP, if_neg hM, if_true, zero_add, zero_add]

/-- **C114 (levels).**  In a new context the state is the flow at `dt` with its wall-normal vorticity, and the first step uses the convection of the
flows at `dt` and at zero. -/
theorem C114_levels (q : Quad) (n : ℕ) (hN : ∀ i, 0 < N i) (h3 : 3 ≤ N 0) (L : Fin 2 → ℝ) (hL : L 0 = 2 * Real.pi) (hL1 : L 1 ≠ 0) (eps : ℝ) {m : ℕ}
    (hm : m ≤ n) (v : Fin m → ℂ) (c : ℂ) (k : Ctx (RModes N) (Fin n → ℂ) (Fin (n + 2) → ℂ)) (hG : k.G = waveGrid N L hN)
    (s : St (RModes N) (Fin n → ℂ) (Fin (n + 2) → ℂ)) (hs : s.g = 0) :
    let s0 := initState k q L eps v c s
    let U := velOS (N := N) q n L eps v c
    s0.U = U k.dt ∧ s0.U0 = U k.dt ∧ (∀ t, vorticity k.G.rot (U t).rot = 0) ∧ s0.g = 0 ∧
      (computeRHS k s0).1.H0 = Channel.maskVec k.mask (Channel.assembleAB (k.conv (U k.dt) (vorticity k.G.rot (U k.dt).rot))
        (k.conv (U 0) (vorticity k.G.rot (U 0).rot))) := by
  intro s0 U
  have hv : ∀ t, vorticity k.G.rot (U t).rot = 0 := fun t => by
    have h := (Channel.OrrSommerfeld.C88_first_step (N := N) q n hN h3 L hL hL1 eps hm v c
      { k.rot with G := Channel.waveGrid N L hN } rfl s.rot hs).2.2.1 t
    rw [hG]
    exact h
  refine ⟨rfl, rfl, hv, rfl, ?_⟩
  rw [hv, hv]
  show Channel.maskVec k.mask (Channel.assembleAB (k.conv (U k.dt) 0) (k.conv (U 0) s.g)) = _
  rw [hs]

theorem initState_rot (q : Quad) (n : ℕ) (L : Fin 2 → ℝ) (eps : ℝ) {m : ℕ} (v : Fin m → ℂ) (c : ℂ) (k : Ctx (RModes N) (Fin n → ℂ) (Fin (n + 2) → ℂ))
    (s : St (RModes N) (Fin n → ℂ) (Fin (n + 2) → ℂ)) : (initState k q L eps v c s).rot =
      { Channel.OrrSommerfeld.initState k.rot q L eps v c s.rot with U0 := (velOS (N := N) q n L eps v c k.dt).rot } := by
  unfold initState Channel.OrrSommerfeld.initState
  simp only [← velOS_rot, show k.rot.dt = k.dt from rfl]
  generalize velOS (N := N) q n L eps v c k.dt = V
  generalize velOS (N := N) q n L eps v c 0 = V0
  rfl

/-- **C114 (run).**  From these starts the runs of the two demos are the same: after any number of steps the velocity and the vorticity of KMMr are
those of KMM with the axes exchanged, although `U_hat0` holds the flow at `dt` in one and the flow at zero in the other. -/
theorem C114_run (q : Quad) (n : ℕ) (hN : ∀ i, 0 < N i) (h3 : 3 ≤ N 0) (L : Fin 2 → ℝ) (hL : L 0 = 2 * Real.pi) (hL1 : L 1 ≠ 0) (eps : ℝ) {m : ℕ}
    (hm : m ≤ n) (v : Fin m → ℂ) (c : ℂ) (k : Ctx (RModes N) (Fin n → ℂ) (Fin (n + 2) → ℂ)) (hG : k.G = waveGrid N L hN)
    (la : LA (RModes N) (Fin n → ℂ) (Fin (n + 2) → ℂ)) (s : St (RModes N) (Fin n → ℂ) (Fin (n + 2) → ℂ)) (l : ℕ) :
    let r := (tick k la id)^[l] (initState k q L eps v c s)
    let r' := (Channel.tick k.rot la id)^[l] (Channel.OrrSommerfeld.initState k.rot q L eps v c s.rot)
    r.U.rot = r'.U ∧ r.g = r'.g := by
  intro r r'
  have hr : r.rot = (Channel.tick k.rot la id)^[l] (initState k q L eps v c s).rot := C86_run k la id _ l
  suffices h : ((Channel.tick k.rot la id)^[l] (initState k q L eps v c s).rot).U = r'.U ∧
      ((Channel.tick k.rot la id)^[l] (initState k q L eps v c s).rot).g = r'.g from
    ⟨(congrArg Channel.St.U hr).trans h.1, (congrArg Channel.St.g hr).trans h.2⟩
  cases l with
  | zero =>
    simp only [Function.iterate_zero, id_eq, initState_rot, r']
    exact ⟨trivial, trivial⟩
  | succ l =>
    have h1 : Channel.tick k.rot la id (initState k q L eps v c s).rot =
        Channel.tick k.rot la id (Channel.OrrSommerfeld.initState k.rot q L eps v c s.rot) := by
      obtain ⟨a0, a1⟩ := mean (N := N) q n hN h3 L hL hL1 eps hm v c 0
      obtain ⟨b0, b1⟩ := mean (N := N) q n hN h3 L hL hL1 eps hm v c k.dt
      have e0 : (velOS (N := N) q n L eps v c k.dt).u0 k.G.zero = (velOS (N := N) q n L eps v c 0).u0 k.G.zero := by
        rw [hG]; exact b0.trans a0.symm
      have e1 : (velOS (N := N) q n L eps v c k.dt).u1 k.G.zero = (velOS (N := N) q n L eps v c 0).u1 k.G.zero := (b1 _).trans (a1 _).symm
      have hU0 : (Channel.OrrSommerfeld.initState k.rot q L eps v c s.rot).U0 = (velOS (N := N) q n L eps v c 0).rot := by
        rw [velOS_rot]; rfl
      have E0 : (velOS (N := N) q n L eps v c k.dt).rot.v k.rot.G.zero = (Channel.OrrSommerfeld.initState k.rot q L eps v c s.rot).U0.v k.rot.G.zero := by
        rw [hU0]; exact e0
      have E1 : (velOS (N := N) q n L eps v c k.dt).rot.w k.rot.G.zero = (Channel.OrrSommerfeld.initState k.rot q L eps v c s.rot).U0.w k.rot.G.zero := by
        rw [hU0]; exact e1
      rw [initState_rot]
      generalize Channel.OrrSommerfeld.initState k.rot q L eps v c s.rot = S at E0 E1 ⊢
      generalize (velOS (N := N) q n L eps v c k.dt).rot = V at E0 E1 ⊢
      simp only [Channel.tick, Channel.advance, Channel.integrate, Channel.solveLinear, Channel.computeRHS, Channel.endOfTstep, E0, E1]
    rw [Function.iterate_succ_apply, h1]
    exact ⟨by rw [← Function.iterate_succ_apply (Channel.tick k.rot la id)], by rw [← Function.iterate_succ_apply (Channel.tick k.rot la id)]⟩

/-- **C114 (source).**  With `nu = 1/Re` the source of the demo balances the viscous force on the parabola, the mean of the flow of `initOS`, which
therefore does not change for any time step when there is no convection of mean momentum. -/
theorem C114_source (q : Quad) (n : ℕ) (hN : ∀ i, 0 < N i) (h3 : 3 ≤ N 0) (L : Fin 2 → ℝ) (hL : L 0 = 2 * Real.pi) (hL1 : L 1 ≠ 0) (eps : ℝ) {m : ℕ}
    (hm : m ≤ n) (v : Fin m → ℂ) (c : ℂ) (k : Ctx (RModes N) (Fin n → ℂ) (Fin (n + 2) → ℂ)) (hG : k.G = waveGrid N L hN)
    (hM : k.M = chebMats q n) (Re : ℝ) (hRe : Re ≠ 0) (hnu : k.nu = 1 / Re) (hSk : k.Sk0 = setSource q n Re) (t dt : ℝ) :
    let u := (velOS (N := N) q n L eps v c t).u0 k.G.zero
    expandC phi u = 1 - X ^ 2 ∧ Spec.Channel.CrankNicolson k.M.BDD0 k.M.ADD0 k.nu dt (-k.Sk0) u u := by
  intro u
  have hu : u = Pi.single 0 (1 / 2) := by
    show (velOS (N := N) q n L eps v c t).u0 k.G.zero = _
    rw [hG]
    exact (mean (N := N) q n hN h3 L hL hL1 eps hm v c t).1
  have hp := Channel.OrrSommerfeld.expandC_parabola n
  have hnu0 : k.nu ≠ 0 := by rw [hnu]; exact one_div_ne_zero hRe
  rw [hu]
  refine ⟨hp, ?_⟩
  have h1 : k.nu * Re = 1 := by rw [hnu, one_div_mul_cancel hRe]
  refine (Laminar.C74_poiseuille k.rot (Channel.scalarProduct q (n + 4) phi) (expandC phi) Re dt hRe hnu0 (fun w => ?_) hSk _ ?_).1
  · show k.M.ADD0 w = _
    rw [hM]; exact Channel.entry_test q (n + 4) (n + 2) 2 phi phi w
  · rw [hp]
    show _ = Polynomial.C ((1 / (k.nu * Re) : ℝ) : ℂ) * _
    rw [h1]; simp

/-- **C114 (growth rate).**  For a non-zero eigenfunction the energy by which the demo divides is not zero, and for the flow of `initOS` the quotient
is `exact`. -/
theorem C114_growth_rate (q : Quad) (n : ℕ) (L : Fin 2 → ℝ) (hL : L 0 = 2 * Real.pi) (hL1 : 0 < L 1) (hN : ∀ i, 0 < N i) (h3 : 3 ≤ N 0) {R : Type*}
    [Fintype R] (blocks : R → Utilities.Block (n + 4) (Periodic.Grid N)) (hb : Utilities.Tiles blocks) (eps : ℝ) (he : eps ≠ 0) {m : ℕ}
    (hm : m ≤ n) (v : Fin m → ℂ) (hv : v ≠ 0) (c : ℂ) (t : ℝ) :
    let e := fun t => pertEnergy (N := N) q n L blocks (initOS0 q n L eps v c t) (initOS2 q n L eps v c t)
    0 < e 0 ∧ e t / e 0 = exact c t :=
  Channel.OrrSommerfeld.C113_growth_rate q n L hL hL1 hN h3 blocks hb eps he hm v hv c t

/-- **C114 (regression test).**  The assertion of the demo bounds the error at every point, and holds if the error is small enough at every point. -/
theorem C114_regression (q : Quad) (n : ℕ) (L : Fin 2 → ℝ) (hL : ∀ i, 0 < L i) (hN : ∀ i, 0 < N i) {R : Type*} [Fintype R]
    (blocks : R → Utilities.Block (n + 4) (Periodic.Grid N)) (hb : Utilities.Tiles blocks) (eps : ℝ) {m : ℕ} (v : Fin m → ℂ) (c : ℂ) (t : ℝ)
    (U0 U2 : Fin (n + 4) → Periodic.Grid N → ℝ) (tol : ℝ) (ht : 0 < tol) :
    let d := fun l p => (U2 l p - initOS2 q n L eps v c t l p) ^ 2 + (U0 l p - initOS0 q n L eps v c t l p) ^ 2
    let pass := Real.sqrt (errorEnergy q n L blocks eps v c t U0 U2) < tol
    (pass → ∀ l p, d l p < 2 * ((n + 4 : ℕ) : ℝ) ^ 2 * (N 0 * N 1) / (L 0 * L 1) * tol ^ 2) ∧
      ((∀ l p, d l p < tol ^ 2 / (L 0 * L 1)) → pass) := by
  intro d pass
  have e : errorEnergy q n L blocks eps v c t U0 U2 = Channel.OrrSommerfeld.errorEnergy q n L blocks eps v c t U2 U0 := by
    unfold errorEnergy Channel.OrrSommerfeld.errorEnergy
    congr 2
    funext l p
    rw [add_comm]
    rfl
  have h := Channel.OrrSommerfeld.C113_regression q n L hL hN blocks hb eps v c t U2 U0 tol ht
  simp only [Channel.OrrSommerfeld.regressionTest, ← e] at h
  exact h

/-! ## Concrete cases -/

/-- The start on a grid of 4 x 2 x 5 points at the origin of the first two axes. -/
example (q : Quad) (z : ℝ) : field2 (N := ![4, 2]) q 1 ![2 * Real.pi, 1] (velOS q 1 ![2 * Real.pi, 1] 1 ![Complex.I] 0 0) 0 0 z =
    ((psi 0).eval z) := by
  have h := ((C114_start q 1 (N := ![4, 2]) (fun i => by fin_cases i <;> simp) (by simp) ![2 * Real.pi, 1] rfl (by simp) 1 le_rfl ![Complex.I] 0 0).1
    0 0 z).1
  rw [h, Channel.expandC_apply]
  have e : (Polynomial.map Complex.ofRealHom (psi 0)).eval (z : ℂ) = ((psi 0).eval z : ℝ) := by
    rw [show (z : ℂ) = Complex.ofRealHom z from rfl, Polynomial.eval_map_apply]; rfl
  simp [e]

end SpectralDNS.KMMr.OrrSommerfeld

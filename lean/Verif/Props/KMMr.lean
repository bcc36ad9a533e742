import Verif.Model.KMMr
import Verif.Props.GalerkinField
import Verif.Props.ChannelStep

/-!
# C86: KMMr is KMM with the axes exchanged cyclically

`(x, y, z)` of KMMr, walls at `z = -1, 1`, are `(y, z, x)` of KMM, walls at `x = -1, 1`.
-/

namespace SpectralDNS.KMMr

open SpectralDNS.Channel (Mats LA Vec maskVec Wall)
open SpectralDNS.Periodic (Space RModes scaledWaves rspace)
open SpectralDNS.Spec.Field

variable {κ B D C P Q : Type*} [DecidableEq κ] [AddCommGroup B] [Module ℂ B] [AddCommGroup D] [Module ℂ D] [AddCommGroup C] [Module ℂ C]

/-- The wavenumbers as KMM names them. -/
def Grid.rot (G : Grid κ) : Channel.Grid κ := ⟨G.K0, G.K1, G.Kx0, G.Kx1, G.zero⟩

/-- The same with `Kx` for all purposes, as the convection of KMMr uses them. -/
def Grid.rotx (G : Grid κ) : Channel.Grid κ := ⟨G.Kx0, G.Kx1, G.Kx0, G.Kx1, G.zero⟩

/-- The components as KMM names them. -/
def Vel.rot (U : Vel κ B D) : Channel.Vel κ B D := ⟨U.u2, U.u0, U.u1⟩

@[inherit_doc Vel.rot] def rotVec (H : Vec κ D) : Vec κ D := ⟨H.c2, H.c0, H.c1⟩

@[inherit_doc Vel.rot] def unrot (U : Channel.Vel κ B D) : Vel κ B D := ⟨U.v, U.w, U.u⟩

@[inherit_doc Vel.rot] def St.rot (s : St κ B D) : Channel.St κ B D := ⟨s.U.rot, s.g, rotVec s.H, rotVec s.H0, rotVec s.H1, s.U0.rot⟩

/-- The context of KMM for the same flow. -/
def Ctx.rot (c : Ctx κ B D) : Channel.Ctx κ B D :=
  ⟨c.nu, c.dt, c.G.rot, c.M, c.mask, fun U g => rotVec (c.conv (unrot U) g), c.Sk0⟩

/-- C86: the `Vortex` convection of KMMr is that of KMM. -/
theorem C86_vortex (W : Wall B D C Q) (T : Space κ P) (G : Grid κ) (U : Vel κ B D) (g : κ → D) :
    rotVec (vortex W T G U g) = Channel.convection .vortex W T G.rotx U.rot g := by
  have e : (fun k => -(Complex.I * (G.Kx0 k : ℂ)) • U.u2 k) = fun k => -Channel.ik G.Kx0 U.u2 k := by
    funext k; simp only [Channel.ik, neg_smul]
  simp only [Channel.convection, Channel.crossHat, Channel.velocity, Channel.computeCurl, Grid.rotx, Vel.rot, e]
  simp only [rotVec, vortex, computeCurl, Periodic.cross1_3d, Function.update_self, ne_eq, Fin.reduceEq, not_false_eq_true,
    Function.update_of_ne, Matrix.cons_val_zero, Matrix.cons_val_one, Matrix.cons_val]

omit [DecidableEq κ] in
theorem maskVec_rot (mask : Option (κ → ℝ)) (H : Vec κ D) : maskVec mask (rotVec H) = rotVec (maskVec mask H) := by
  cases mask <;> rfl

omit [DecidableEq κ] in
theorem computeRHS_rot (c : Ctx κ B D) (s : St κ B D) :
    Channel.computeRHS c.rot s.rot = ((computeRHS c s).1.rot, (computeRHS c s).2.1, (computeRHS c s).2.2) := by
  have hA : ∀ H H1 : Vec κ D, Channel.assembleAB (rotVec H) (rotVec H1) = rotVec (Channel.assembleAB H H1) := fun _ _ => rfl
  refine Prod.ext ?_ (Prod.ext ?_ ?_)
  · simp only [Channel.computeRHS, computeRHS, Ctx.rot, St.rot, hA, maskVec_rot]
    rfl
  · funext k
    simp only [Channel.computeRHS, computeRHS, Ctx.rot, St.rot, hA, maskVec_rot, Channel.hvOf]
    simp only [rotVec, Grid.rot, Vel.rot, unrot, Channel.Grid.Ksq, Channel.Grid.K4, Grid.K2, Grid.K4]
    congr 2
    abel
  · funext k
    simp only [Channel.computeRHS, computeRHS, Ctx.rot, St.rot, hA, maskVec_rot, Channel.hgOf]
    rfl

theorem solveLinear_rot (c : Ctx κ B D) (la : LA κ B D) (s : St κ B D) (rhs0 : κ → B) (rhs1 : κ → D) :
    Channel.solveLinear c.rot la s.rot rhs0 rhs1 = (solveLinear c la s rhs0 rhs1).rot := by
  simp only [Channel.solveLinear, solveLinear, map_neg, zero_sub]
  rfl

theorem tick_rot (c : Ctx κ B D) (la : LA κ B D) (upd : Vel κ B D → Vel κ B D) (s : St κ B D) :
    (tick c la upd s).rot = Channel.tick c.rot la (fun U => (upd (unrot U)).rot) s.rot := by
  simp only [Channel.tick, Channel.advance, Channel.integrate, computeRHS_rot, solveLinear_rot]
  rfl

/-- C86: any number of steps of KMMr with any `update` are as many steps of KMM with the same matrices, solvers, source and mask, and the
exchanged `update` and convection. -/
theorem C86_run (c : Ctx κ B D) (la : LA κ B D) (upd : Vel κ B D → Vel κ B D) (s : St κ B D) (n : ℕ) :
    ((tick c la upd)^[n] s).rot = (Channel.tick c.rot la fun U => (upd (unrot U)).rot)^[n] s.rot := by
  induction n with
  | zero => rfl
  | succ n ih => rw [Function.iterate_succ_apply', Function.iterate_succ_apply', tick_rot, ih]

/-- C86: the step equations of KMM (C34) hold for KMMr: Crank-Nicolson for the viscous terms, Adams-Bashforth for the convection. -/
theorem C86_step (c : Ctx κ B D) (la : LA κ B D) (hnu : c.nu ≠ 0) (hdt : c.dt ≠ 0) (hla : la.Solves c.nu c.dt c.G.rot c.M)
    (upd : Vel κ B D → Vel κ B D) (s0 : St κ B D) (h0 : s0.U0 = s0.U) (n : ℕ) :
    let s := fun n => (tick c la upd)^[n] s0
    let N := fun n => rotVec (c.conv (s n).U (s n).g)
    let Nold := fun n => match n with
      | 0 => rotVec s0.H1
      | m + 1 => N m
    ∃ U', (s (n + 1)).U = upd U' ∧
      Channel.StepEq c.rot (N n) (Nold n) (s n).U.rot (s n).g ((s n).U.u0 c.G.zero) ((s n).U.u1 c.G.zero) U'.rot (s (n + 1)).g := by
  intro s N Nold
  obtain ⟨U', h1, h2⟩ := Channel.C34_run c.rot la hnu hdt hla (fun U => (upd (unrot U)).rot) s0.rot (by rw [St.rot, h0]) n
  simp only [← C86_run] at h1 h2
  refine ⟨unrot U', congrArg unrot h1, ?_⟩
  cases n <;> exact h2

/-- C86: after any step `get_divergence` transforms the zero array. -/
theorem C86_get_divergence (c : Ctx κ B D) (la : LA κ B D) (htdma : ∀ b, c.M.BDD (la.tdmaD b) = b)
    (htdma' : ∀ x, la.tdmaD (c.M.BDD x) = x) (hz : ∀ k, c.G.K2 k = 0 ↔ k = c.G.zero) (s : St κ B D) (n : ℕ) (k : κ) :
    divergenceHat c.G c.M la.tdmaD ((tick c la id)^[n + 1] s).U k = 0 := by
  have h := Channel.C33_get_divergence c.rot la htdma htdma' hz s.rot n k
  have e : (fun U : Channel.Vel κ B D => ((id (unrot U) : Vel κ B D)).rot) = id := rfl
  rw [← e, ← C86_run] at h
  refine Eq.trans ?_ h
  simp only [divergenceHat, Channel.divergenceHat, St.rot, Vel.rot, Ctx.rot, Grid.rot]
  abel

/-! ## The functions -/

variable {N : Fin 2 → ℕ} {L : Fin 2 → ℝ}

/-- The velocity components as functions of `(x, y, z)`, `z` the wall-normal coordinate. -/
noncomputable def field0 (q : Channel.Quad) (n : ℕ) (L : Fin 2 → ℝ) (U : Vel (RModes N) (Fin n → ℂ) (Fin (n + 2) → ℂ)) : Scalar :=
  fun x y z => Channel.fieldOf N L (fun k => (Channel.chebWall q n).fD (U.u0 k)) z x y
@[inherit_doc field0] noncomputable def field1 (q : Channel.Quad) (n : ℕ) (L : Fin 2 → ℝ)
    (U : Vel (RModes N) (Fin n → ℂ) (Fin (n + 2) → ℂ)) : Scalar :=
  fun x y z => Channel.fieldOf N L (fun k => (Channel.chebWall q n).fD (U.u1 k)) z x y
@[inherit_doc field0] noncomputable def field2 (q : Channel.Quad) (n : ℕ) (L : Fin 2 → ℝ)
    (U : Vel (RModes N) (Fin n → ℂ) (Fin (n + 2) → ℂ)) : Scalar :=
  fun x y z => Channel.fieldOf N L (fun k => (Channel.chebWall q n).fB (U.u2 k)) z x y

/-- C86: after any step of KMMr from any state the velocity is divergence free at every point and zero at the walls `z = -1, 1`. -/
theorem C86_field (q : Channel.Quad) (n : ℕ) (hN : ∀ i, 0 < N i) (hL : ∀ i, L i ≠ 0) (c : Ctx (RModes N) (Fin n → ℂ) (Fin (n + 2) → ℂ))
    (hM : c.M = Channel.chebMats q n) (h0 : c.G.K0 = scaledWaves N L 0) (h1 : c.G.K1 = scaledWaves N L 1)
    (hzero : c.G.zero = (Channel.waveGrid N L hN).zero) (la : LA (RModes N) (Fin n → ℂ) (Fin (n + 2) → ℂ))
    (htdma : ∀ b, c.M.BDD (la.tdmaD b) = b) (s : St (RModes N) (Fin n → ℂ) (Fin (n + 2) → ℂ)) (m : ℕ) :
    let U := ((tick c la id)^[m + 1] s).U
    DivergenceFree (field0 q n L U) (field1 q n L U) (field2 q n L U) ∧
    ∀ x y z, z = -1 ∨ z = 1 → field0 q n L U x y z = 0 ∧ field1 q n L U x y z = 0 ∧ field2 q n L U x y z = 0 := by
  intro U
  have hz : ∀ k, c.rot.G.Ksq k = 0 ↔ k = c.rot.G.zero := fun k => by
    have h := Channel.waveGrid_zero N L hN hL k
    simp only [Channel.Grid.Ksq, Ctx.rot, Grid.rot, h0, h1, hzero]
    exact h
  have hS : Channel.Solenoidal c.rot U.rot ((tick c la id)^[m + 1] s).g := by
    have e := C86_run c la id s (m + 1)
    rw [Function.iterate_succ_apply' (Channel.tick c.rot la _)] at e
    have h := Channel.C33_kmm c.rot la htdma hz
      (Channel.computeRHS c.rot ((Channel.tick c.rot la fun U => (id (unrot U) : Vel _ _ _).rot)^[m] s.rot)).1
      (Channel.computeRHS c.rot ((Channel.tick c.rot la fun U => (id (unrot U) : Vel _ _ _).rot)^[m] s.rot)).2.1
      (Channel.computeRHS c.rot ((Channel.tick c.rot la fun U => (id (unrot U) : Vel _ _ _).rot)^[m] s.rot)).2.2
    have eU : U.rot = _ := congrArg Channel.St.U e
    have eg : ((tick c la id)^[m + 1] s).g = _ := congrArg Channel.St.g e
    rw [eU, eg]
    exact h
  let c' : Channel.Ctx (RModes N) (Fin n → ℂ) (Fin (n + 2) → ℂ) := { c.rot with G := Channel.waveGrid N L hN }
  have hS' : Channel.Solenoidal c' U.rot ((tick c la id)^[m + 1] s).g := by
    obtain ⟨a1, a2, a3⟩ := hS
    refine ⟨fun k => ?_, fun k hk => ?_, ?_⟩
    · have := a1 k
      simp only [Ctx.rot, Grid.rot, h0, h1] at this
      exact this
    · have := a2 k (by simp only [Ctx.rot, Grid.rot, hzero]; exact hk)
      simp only [Ctx.rot, Grid.rot, h0, h1] at this
      exact this
    · simp only [Ctx.rot, Grid.rot, hzero] at a3
      exact a3
  obtain ⟨hd, -⟩ := Channel.solenoidal_field q n hN hL c' hM rfl _ _ hS'
  have hns := Channel.noSlip (L := L) q n U.rot
  refine ⟨fun x y z => ?_, fun x y z hw => ?_⟩
  · have := hd z x y
    refine Eq.trans ?_ this
    rw [add_comm _ (dz _ x y z), ← add_assoc]
    rfl
  · obtain ⟨b0, b1, b2, -⟩ := hns z x y hw
    exact ⟨b1, b2, b0⟩

/-- The hypotheses are met: four wavenumber pairs, exact solvers (the data of the example for C33). -/
noncomputable example : ∃ (c : Ctx (Bool × Bool) ℂ ℂ) (la : LA (Bool × Bool) ℂ ℂ), (∀ b, c.M.BDD (la.tdmaD b) = b) ∧
    (∀ x, la.tdmaD (c.M.BDD x) = x) ∧ (∀ k, c.G.K2 k = 0 ↔ k = c.G.zero) ∧ la.Solves c.nu c.dt c.G.rot c.M ∧ c.Sk0 ≠ 0 :=
  ⟨⟨1, 1, ⟨Channel.demoGrid.K1, Channel.demoGrid.K2, Channel.demoGrid.X1, Channel.demoGrid.X2, Channel.demoGrid.zero⟩, Channel.demoMats, none,
    fun U g => ⟨fun k => U.u2 k * g k, fun k => g k + 1, fun k => U.u0 k⟩, 1⟩, Channel.demoLA,
    fun b => by simp [Channel.demoMats, Channel.demoLA]; ring, fun b => by simp [Channel.demoMats, Channel.demoLA],
    Channel.demoGrid_zero, Channel.demo_solves, one_ne_zero⟩

end SpectralDNS.KMMr

import Verif.Props.ChannelSolve

/-!
# C34 and C36: the KMM time step and its restart
-/

namespace SpectralDNS.Channel

open Spec.Channel

variable {κ B D : Type*} [DecidableEq κ] [AddCommGroup B] [Module ℂ B] [AddCommGroup D] [Module ℂ D]

/-- The factor a mask applies at one wavenumber pair; one without mask. -/
def maskAt (mask : Option (κ → ℝ)) (k : κ) : ℝ := match mask with
  | none => 1
  | some m => m k

omit [DecidableEq κ] in
theorem maskVec_c0 (mask : Option (κ → ℝ)) (H : Vec κ D) (k : κ) : (maskVec mask H).c0 k = (maskAt mask k : ℂ) • H.c0 k := by
  cases mask <;> simp [maskVec, maskAt]

omit [DecidableEq κ] in
theorem maskVec_c1 (mask : Option (κ → ℝ)) (H : Vec κ D) (k : κ) : (maskVec mask H).c1 k = (maskAt mask k : ℂ) • H.c1 k := by
  cases mask <;> simp [maskVec, maskAt]

omit [DecidableEq κ] in
theorem maskVec_c2 (mask : Option (κ → ℝ)) (H : Vec κ D) (k : κ) : (maskVec mask H).c2 k = (maskAt mask k : ℂ) • H.c2 k := by
  cases mask <;> simp [maskVec, maskAt]

/-- The equations of one step from velocity `U`, vorticity `g` and mean velocity `(vm, wm)` to `U'`, `g'` with convection `N` now and
`Nold` one step earlier: Crank-Nicolson for the viscous terms, Adams-Bashforth for the convection. -/
def StepEq (c : Ctx κ B D) (N Nold : Vec κ D) (U : Vel κ B D) (g : κ → D) (vm wm : D) (U' : Vel κ B D) (g' : κ → D) : Prop :=
  let h0 := fun k => ab2Mid (maskAt c.mask k) (N.c0 k) (Nold.c0 k)
  let h1 := fun k => ab2Mid (maskAt c.mask k) (N.c1 k) (Nold.c1 k)
  let h2 := fun k => ab2Mid (maskAt c.mask k) (N.c2 k) (Nold.c2 k)
  (∀ k, k ≠ c.G.zero → CrankNicolson (lap c.M.BBB c.M.ABB (c.G.Ksq k)) (bilap c.M.BBB c.M.ABB c.M.SBB (c.G.Ksq k)) c.nu c.dt
      (forceU c.M.BBD c.M.CBD (c.G.Ksq k) (c.G.X1 k) (c.G.X2 k) (h0 k) (h1 k) (h2 k)) (U.u k) (U'.u k)) ∧
  (∀ k, CrankNicolson c.M.BDD (lap c.M.BDD c.M.ADD (c.G.Ksq k)) c.nu c.dt (forceG c.M.BDD (c.G.X1 k) (c.G.X2 k) (h1 k) (h2 k))
      (g k) (g' k)) ∧
  CrankNicolson c.M.BDD0 c.M.ADD0 c.nu c.dt (c.M.BDD0 (h1 c.G.zero) - c.Sk) vm (U'.v c.G.zero) ∧
  CrankNicolson c.M.BDD0 c.M.ADD0 c.nu c.dt (c.M.BDD0 (h2 c.G.zero)) wm (U'.w c.G.zero)

omit [DecidableEq κ] in
theorem hvOf_eq (G : Grid κ) (M : Mats B D) (H : Vec κ D) (k : κ) :
    hvOf G M H k = forceU M.BBD M.CBD (G.Ksq k) (G.X1 k) (G.X2 k) (H.c0 k) (H.c1 k) (H.c2 k) := by
  simp only [hvOf, forceU, map_add, map_smul]
  abel

omit [DecidableEq κ] in
theorem hgOf_eq (G : Grid κ) (M : Mats B D) (H : Vec κ D) (k : κ) :
    hgOf G M H k = forceG M.BDD (G.X1 k) (G.X2 k) (H.c1 k) (H.c2 k) := by
  simp only [hgOf, forceG, curl, map_sub, map_smul]

omit [DecidableEq κ] in
theorem ab_c0 (mask : Option (κ → ℝ)) (H H1 : Vec κ D) (k : κ) :
    (maskVec mask (assembleAB H H1)).c0 k = ab2Mid (maskAt mask k) (H.c0 k) (H1.c0 k) := by
  rw [maskVec_c0, ab2Mid, assembleAB]
  norm_num

omit [DecidableEq κ] in
theorem ab_c1 (mask : Option (κ → ℝ)) (H H1 : Vec κ D) (k : κ) :
    (maskVec mask (assembleAB H H1)).c1 k = ab2Mid (maskAt mask k) (H.c1 k) (H1.c1 k) := by
  rw [maskVec_c1, ab2Mid, assembleAB]
  norm_num

omit [DecidableEq κ] in
theorem ab_c2 (mask : Option (κ → ℝ)) (H H1 : Vec κ D) (k : κ) :
    (maskVec mask (assembleAB H H1)).c2 k = ab2Mid (maskAt mask k) (H.c2 k) (H1.c2 k) := by
  rw [maskVec_c2, ab2Mid, assembleAB]
  norm_num

/-- C34 for one KMM step from any context. The mean flow starts from `U_hat0`. -/
theorem C34_step (c : Ctx κ B D) (la : LA κ B D) (hnu : c.nu ≠ 0) (hdt : c.dt ≠ 0) (hla : la.Solves c.nu c.dt c.G c.M)
    (s : St κ B D) :
    StepEq c (c.conv s.U s.g) s.H1 s.U s.g (s.U0.v c.G.zero) (s.U0.w c.G.zero) (integrate c la s).U (integrate c la s).g := by
  have hnu' : (c.nu : ℂ) ≠ 0 := by exact_mod_cast hnu
  have hdt' : (c.dt : ℂ) ≠ 0 := by exact_mod_cast hdt
  refine ⟨fun k hk => ?_, fun k => ?_, ?_, ?_⟩
  · have h := hla.biharmonicU k ((computeRHS c s).2.1 k)
    have e : (integrate c la s).U.u k = la.biharmonicU k ((computeRHS c s).2.1 k) := by
      simp [integrate, solveLinear, Function.update_of_ne hk]
    rw [e]
    generalize la.biharmonicU k ((computeRHS c s).2.1 k) = x at h
    simp only [computeRHS, hvOf_eq, ab_c0, ab_c1, ab_c2, biharmonicCoeff] at h
    generalize forceU c.M.BBD c.M.CBD _ _ _ _ _ _ = F at h ⊢
    simp only [CrankNicolson, lap, bilap, LinearMap.add_apply, LinearMap.sub_apply, LinearMap.smul_apply]
    simp only [Grid.K4] at h
    push_cast at h ⊢
    rw [← sub_eq_zero] at h ⊢
    rw [← h]
    module
  · have h := hla.helmholtzG k ((computeRHS c s).2.2 k)
    have e : (integrate c la s).g k = la.helmholtzG k ((computeRHS c s).2.2 k) := by
      simp [integrate, solveLinear]
    rw [e]
    generalize la.helmholtzG k ((computeRHS c s).2.2 k) = x at h
    simp only [computeRHS, hgOf_eq, ab_c1, ab_c2, helmholtzCoeff] at h
    generalize forceG c.M.BDD _ _ _ _ = F at h ⊢
    simp only [CrankNicolson, lap, LinearMap.sub_apply, LinearMap.smul_apply]
    push_cast at h ⊢
    rw [← sub_eq_zero] at h ⊢
    refine Eq.trans ?_ ((congrArg (fun z => ((c.nu * c.dt / 2 : ℂ)) • z) h).trans (smul_zero _))
    match_scalars <;> field_simp <;> ring
  · have h := hla.helmholtzU0 (c.M.BDD0 (((2 / c.nu : ℝ) : ℂ) • (computeRHS c s).1.H0.c1 c.G.zero)
      - ((2 / c.nu : ℝ) : ℂ) • c.Sk + c.M.ADD0 (s.U0.v c.G.zero) + ((2 / c.nu / c.dt : ℝ) : ℂ) • c.M.BDD0 (s.U0.v c.G.zero))
    have e : (integrate c la s).U.v c.G.zero = la.helmholtzU0 (c.M.BDD0 (((2 / c.nu : ℝ) : ℂ) • (computeRHS c s).1.H0.c1 c.G.zero)
      - ((2 / c.nu : ℝ) : ℂ) • c.Sk + c.M.ADD0 (s.U0.v c.G.zero) + ((2 / c.nu / c.dt : ℝ) : ℂ) • c.M.BDD0 (s.U0.v c.G.zero)) := by
      simp [integrate, solveLinear, computeRHS]
    rw [e]
    generalize la.helmholtzU0 _ = x at h
    simp only [computeRHS, ab_c1, map_smul] at h
    simp only [CrankNicolson]
    generalize c.M.BDD0 (ab2Mid _ _ _) = F at h ⊢
    push_cast at h ⊢
    rw [← sub_eq_zero] at h ⊢
    refine Eq.trans ?_ ((congrArg (fun z => ((c.nu * c.dt / 2 : ℂ)) • z) h).trans (smul_zero _))
    match_scalars <;> field_simp <;> ring
  · have h := hla.helmholtzU0 (c.M.BDD0 (((2 / c.nu : ℝ) : ℂ) • (computeRHS c s).1.H0.c2 c.G.zero)
      + c.M.ADD0 (s.U0.w c.G.zero) + c.M.BDD0 (((2 / c.nu / c.dt : ℝ) : ℂ) • s.U0.w c.G.zero))
    have e : (integrate c la s).U.w c.G.zero = la.helmholtzU0 (c.M.BDD0 (((2 / c.nu : ℝ) : ℂ) • (computeRHS c s).1.H0.c2 c.G.zero)
      + c.M.ADD0 (s.U0.w c.G.zero) + c.M.BDD0 (((2 / c.nu / c.dt : ℝ) : ℂ) • s.U0.w c.G.zero)) := by
      simp [integrate, solveLinear, computeRHS]
    rw [e]
    generalize la.helmholtzU0 _ = x at h
    simp only [computeRHS, ab_c2, map_smul] at h
    simp only [CrankNicolson]
    generalize c.M.BDD0 (ab2Mid _ _ _) = F at h ⊢
    push_cast at h ⊢
    rw [← sub_eq_zero] at h ⊢
    refine Eq.trans ?_ ((congrArg (fun z => ((c.nu * c.dt / 2 : ℂ)) • z) h).trans (smul_zero _))
    match_scalars <;> field_simp <;> ring

/-- C34 along a whole run with any `update` callback, started with `U_hat0 = U_hat` as MKM.py:78 and OrrSommerfeld.py do: step `n` solves the step
equations from the current solution, `Nold` being the convection evaluated at the previous step (the initial `H_hat1` at the first). -/
theorem C34_run (c : Ctx κ B D) (la : LA κ B D) (hnu : c.nu ≠ 0) (hdt : c.dt ≠ 0) (hla : la.Solves c.nu c.dt c.G c.M)
    (upd : Vel κ B D → Vel κ B D) (s0 : St κ B D) (h0 : s0.U0 = s0.U) (n : ℕ) :
    let s := fun n => (tick c la upd)^[n] s0
    let N := fun n => c.conv (s n).U (s n).g
    let Nold := fun n => match n with
      | 0 => s0.H1
      | m + 1 => N m
    ∃ U', (s (n + 1)).U = upd U' ∧
      StepEq c (N n) (Nold n) (s n).U (s n).g ((s n).U.v c.G.zero) ((s n).U.w c.G.zero) U' (s (n + 1)).g := by
  intro s N Nold
  have hs : ∀ n, s (n + 1) = tick c la upd (s n) := fun n => Function.iterate_succ_apply' _ _ _
  have hU0 : ∀ n, (s n).U0 = (s n).U := by
    intro n
    cases n with
    | zero => exact h0
    | succ n => rw [hs]; rfl
  have hH1 : ∀ n, (s n).H1 = Nold n := by
    intro n
    cases n with
    | zero => rfl
    | succ n => rw [hs]; rfl
  refine ⟨(integrate c la (s n)).U, by rw [hs]; rfl, ?_⟩
  have h := C34_step c la hnu hdt hla (s n)
  rw [hU0, hH1] at h
  rw [hs]
  exact h

example (n : ℕ) (s0 : St (Bool × Bool) ℂ ℂ) (h0 : s0.U0 = s0.U) :=
  C34_run demoCtx demoLA (by norm_num [demoCtx]) (by norm_num [demoCtx]) demo_solves id s0 h0 n

/-! ## Restart -/

/-- A context agrees with another in everything the future depends on. -/
def Agree (c : Ctx κ B D) (s t : St κ B D) : Prop :=
  s.U = t.U ∧ s.g = t.g ∧ s.H1 = t.H1 ∧ s.U0.v c.G.zero = t.U0.v c.G.zero ∧ s.U0.w c.G.zero = t.U0.w c.G.zero

theorem Agree.tick {c : Ctx κ B D} {s t : St κ B D} (la : LA κ B D) (upd : Vel κ B D → Vel κ B D) (h : Agree c s t) :
    Agree c (tick c la upd s) (tick c la upd t) := by
  obtain ⟨h1, h2, h3, h4, h5⟩ := h
  refine ⟨?_, ?_, ?_, ?_, ?_⟩ <;>
    simp [Channel.tick, advance, integrate, endOfTstep, solveLinear, computeRHS, h1, h2, h3, h4, h5]

/-- Velocity and vorticity coefficients, velocity level by level: what a run shows. -/
def SameRun (c : Ctx κ B D) (la : LA κ B D) (upd : Vel κ B D → Vel κ B D) (s t : St κ B D) : Prop :=
  ∀ n, ((tick c la upd)^[n] s).U = ((tick c la upd)^[n] t).U ∧ ((tick c la upd)^[n] s).g = ((tick c la upd)^[n] t).g

theorem Agree.sameRun {c : Ctx κ B D} {s t : St κ B D} (la : LA κ B D) (upd : Vel κ B D → Vel κ B D) (h : Agree c s t) :
    SameRun c la upd s t := by
  intro n
  have : Agree c ((Channel.tick c la upd)^[n] s) ((Channel.tick c la upd)^[n] t) := by
    induction n with
    | zero => exact h
    | succ n ih => rw [Function.iterate_succ_apply', Function.iterate_succ_apply']; exact ih.tick la upd
  exact ⟨this.1, this.2.1⟩

/-- The checkpoint written during step `n + 1` (after `update`, before `end_of_tstep`): levels `0` and `1`. -/
noncomputable def checkpoint (c : Ctx κ B D) (la : LA κ B D) (upd : Vel κ B D → Vel κ B D) (s0 : St κ B D) (n : ℕ) :
    Vel κ B D × Vel κ B D :=
  let s := advance c la upd ((tick c la upd)^[n] s0)
  (s.U, s.U0)

/-- `g` stays zero at the zero wavenumber pair. -/
theorem g_zero (c : Ctx κ B D) (la : LA κ B D) (upd : Vel κ B D → Vel κ B D) (hX1 : c.G.X1 c.G.zero = 0) (hX2 : c.G.X2 c.G.zero = 0)
    (hh : la.helmholtzG c.G.zero 0 = 0) (s0 : St κ B D) (h0 : s0.g c.G.zero = 0) (n : ℕ) :
    ((tick c la upd)^[n] s0).g c.G.zero = 0 := by
  induction n with
  | zero => exact h0
  | succ n ih =>
    rw [Function.iterate_succ_apply']
    simp [tick, advance, endOfTstep, integrate, solveLinear, computeRHS, hgOf, hX1, hX2, helmholtzCoeff, ih, hh]

/-- C36, the part which holds: after restoring both levels the run continues exactly as the uninterrupted one, provided the
convection does not look at `g` (the Standard, Divergence and Skew forms), the mean flow did not change in the last step, and
`update` leaves the wall-normal vorticity and the mean of `g` alone. Missing: changing mean flow and the Vortex form, see
`C36_mean_false` and `C36_vortex_false`. -/
theorem C36_restart_partial (c : Ctx κ B D) (la : LA κ B D) (upd : Vel κ B D → Vel κ B D) (htdma : ∀ b, c.M.BDD (la.tdmaD b) = b)
    (hz : ∀ k, c.G.Ksq k = 0 ↔ k = c.G.zero) (hupd : ∀ U, vorticity c.G (upd U) = vorticity c.G U)
    (hX1 : c.G.X1 c.G.zero = 0) (hX2 : c.G.X2 c.G.zero = 0) (hh : la.helmholtzG c.G.zero 0 = 0)
    (hconv : ∀ U g g', c.conv U g = c.conv U g') (s0 fresh : St κ B D) (h0 : s0.U0 = s0.U) (hg0 : s0.g c.G.zero = 0) (n : ℕ)
    (hv : (checkpoint c la upd s0 n).1.v c.G.zero = (checkpoint c la upd s0 n).2.v c.G.zero)
    (hw : (checkpoint c la upd s0 n).1.w c.G.zero = (checkpoint c la upd s0 n).2.w c.G.zero) :
    SameRun c la upd (initFromFile c fresh (checkpoint c la upd s0 n).1 (checkpoint c la upd s0 n).2)
      ((tick c la upd)^[n + 1] s0) := by
  have hg := g_zero c la upd hX1 hX2 hh s0 hg0 (n + 1)
  rw [Function.iterate_succ_apply'] at hg ⊢
  have hU0 : ((tick c la upd)^[n] s0).U0 = ((tick c la upd)^[n] s0).U := by
    cases n with
    | zero => exact h0
    | succ n => rw [Function.iterate_succ_apply']; rfl
  simp only [checkpoint] at hv hw ⊢
  generalize (tick c la upd)^[n] s0 = s at hg hv hw hU0 ⊢
  apply Agree.sameRun
  refine ⟨rfl, ?_, ?_, hv.symm, hw.symm⟩
  · funext k
    have h := C33_kmm c la htdma hz (computeRHS c s).1 (computeRHS c s).2.1 (computeRHS c s).2.2
    by_cases hk : k = c.G.zero
    · have hq : c.G.K1 k * c.G.K1 k + c.G.K2 k * c.G.K2 k = 0 := (hz k).2 hk
      have h1 : c.G.K1 k = 0 := by nlinarith [mul_self_nonneg (c.G.K1 k), mul_self_nonneg (c.G.K2 k)]
      have h2 : c.G.K2 k = 0 := by nlinarith [mul_self_nonneg (c.G.K1 k), mul_self_nonneg (c.G.K2 k)]
      rw [hk, hg, ← hk]
      simp [initFromFile, vorticity, h1, h2]
    · have h3 := h.2.1 k hk
      have h4 := congrFun (hupd (integrate c la s).U) k
      exact h4.trans h3
  · change c.conv (advance c la upd s).U0 fresh.g = c.conv s.U s.g
    rw [show (advance c la upd s).U0 = s.U0 from rfl, hU0]
    exact hconv _ _ _

/-- The first step after a restart takes the mean flow from the older of the two levels: with no mean forcing it solves the
Crank-Nicolson step from the older level, so it reproduces the mean flow of the newer level instead of advancing it. -/
theorem C36_mean_repeated (c : Ctx κ B D) (la : LA κ B D) (s0 fresh : St κ B D)
    (hconv : ∀ U g, (c.conv U g).c1 c.G.zero = 0 ∧ (c.conv U g).c2 c.G.zero = 0) (n : ℕ)
    (h1 : ∀ k, s0.H1.c1 k = 0) (h2 : ∀ k, s0.H1.c2 k = 0) :
    let p := checkpoint c la id s0 n
    let t := initFromFile c fresh p.1 p.2
    (integrate c la t).U.v c.G.zero = t.U.v c.G.zero ∧ (integrate c la t).U.w c.G.zero = t.U.w c.G.zero := by
  intro p t
  have hH1 : ((tick c la id)^[n] s0).H1.c1 c.G.zero = 0 ∧ ((tick c la id)^[n] s0).H1.c2 c.G.zero = 0 := by
    cases n with
    | zero => exact ⟨h1 _, h2 _⟩
    | succ n => rw [Function.iterate_succ_apply']; exact hconv _ _
  have hz : ∀ H H1 : Vec κ D, H.c1 c.G.zero = 0 → H1.c1 c.G.zero = 0 → (maskVec c.mask (assembleAB H H1)).c1 c.G.zero = 0 := by
    intro H H1 ha hb
    rw [ab_c1, ha, hb, ab2Mid]; simp
  have hz' : ∀ H H1 : Vec κ D, H.c2 c.G.zero = 0 → H1.c2 c.G.zero = 0 → (maskVec c.mask (assembleAB H H1)).c2 c.G.zero = 0 := by
    intro H H1 ha hb
    rw [ab_c2, ha, hb, ab2Mid]; simp
  have ht : t.U0 = ((tick c la id)^[n] s0).U0 := rfl
  have htU : t.U = (integrate c la ((tick c la id)^[n] s0)).U := rfl
  have htH : t.H1.c1 c.G.zero = 0 ∧ t.H1.c2 c.G.zero = 0 := hconv _ _
  constructor
  · rw [htU]
    simp only [integrate, solveLinear, computeRHS, Function.update_self, ht]
    rw [hz _ _ (hconv _ _).1 htH.1, hz _ _ (hconv _ _).1 hH1.1]
  · rw [htU]
    simp only [integrate, solveLinear, computeRHS, Function.update_self, ht]
    rw [hz' _ _ (hconv _ _).2 htH.2, hz' _ _ (hconv _ _).2 hH1.2]

/-- Decaying mean flow, no convection. -/
noncomputable def decayCtx : Ctx Unit ℂ ℂ where
  nu := 1
  dt := 1
  G := ⟨fun _ => 0, fun _ => 0, fun _ => 0, fun _ => 0, ()⟩
  M := ⟨0, LinearMap.id, LinearMap.id, LinearMap.id, -LinearMap.id, LinearMap.id, 0, 0, -LinearMap.id, LinearMap.id⟩
  mask := none
  conv _ _ := ⟨0, 0, 0⟩
  Sk := 0

/-- Exact solvers for `decayCtx`. -/
noncomputable def decayLA : LA Unit ℂ ℂ := ⟨fun _ b => b / 3, fun _ b => 2 * b, fun b => b / 3, id⟩

theorem decay_solves : decayLA.Solves decayCtx.nu decayCtx.dt decayCtx.G decayCtx.M := by
  constructor
  · intro k b
    simp [decayLA, decayCtx, Grid.Ksq]
    ring
  · intro k b
    simp [decayLA, decayCtx, Grid.Ksq, Grid.K4]
    ring
  · intro b
    simp [decayLA, decayCtx]
    ring
  · intro b
    simp [decayLA, decayCtx]

/-- C36 is false for a changing mean flow: viscous decay by the factor `1/3` per step, checkpoint in the first step; the run
restarted from it holds the mean flow fixed for a step. -/
theorem C36_mean_false :
    ∃ s0 fresh : St Unit ℂ ℂ, s0.U0 = s0.U ∧
      ¬ SameRun decayCtx decayLA id (initFromFile decayCtx fresh (checkpoint decayCtx decayLA id s0 0).1
        (checkpoint decayCtx decayLA id s0 0).2) ((tick decayCtx decayLA id)^[1] s0) := by
  refine ⟨⟨⟨0, fun _ => 9, 0⟩, 0, ⟨0, 0, 0⟩, ⟨0, 0, 0⟩, ⟨0, 0, 0⟩, ⟨0, fun _ => 9, 0⟩⟩,
    ⟨⟨0, 0, 0⟩, 0, ⟨0, 0, 0⟩, ⟨0, 0, 0⟩, ⟨0, 0, 0⟩, ⟨0, 0, 0⟩⟩, rfl, fun h => ?_⟩
  have h1 := congrArg (fun U => U.v ()) (h 1).1
  norm_num [tick, advance, endOfTstep, integrate, solveLinear, computeRHS, decayCtx, decayLA, computeVW, checkpoint, initFromFile,
      Grid.over1, Grid.over2, Grid.Ksq, Grid.K4, hvOf, hgOf, maskVec, assembleAB, biharmonicCoeff, helmholtzCoeff] at h1

/-- One mode besides the mean and a convection term which reads `g`. -/
noncomputable def vortexCtx : Ctx Bool ℂ ℂ where
  nu := 2
  dt := 1
  G := ⟨fun k => if k then 1 else 0, fun _ => 0, fun k => if k then 1 else 0, fun _ => 0, false⟩
  M := ⟨0, 0, 0, -LinearMap.id, -LinearMap.id, LinearMap.id, 0, 0, 0, LinearMap.id⟩
  mask := none
  conv _ g := ⟨0, 0, fun k => if k then g k else 0⟩
  Sk := 0

/-- Exact solvers for `vortexCtx`. -/
noncomputable def vortexLA : LA Bool ℂ ℂ := ⟨fun k b => if k then b / 3 else b / 2, fun _ b => b, fun b => b, id⟩

theorem vortex_solves : vortexLA.Solves vortexCtx.nu vortexCtx.dt vortexCtx.G vortexCtx.M := by
  constructor
  · intro k b
    cases k <;> simp [vortexLA, vortexCtx, Grid.Ksq] <;> ring
  · intro k b
    simp [vortexLA, vortexCtx]
  · intro b
    simp [vortexLA, vortexCtx]
  · intro b
    simp [vortexLA, vortexCtx]

/-- C36 is false for the Vortex form: `init_from_file` evaluates the convection of the older level with whatever `g` the fresh context
holds (zero). The mean flow is zero throughout. -/
theorem C36_vortex_false :
    ∃ s0 fresh : St Bool ℂ ℂ, s0.U0 = s0.U ∧ s0.g = vorticity vortexCtx.G s0.U ∧
      ¬ SameRun vortexCtx vortexLA id (initFromFile vortexCtx fresh (checkpoint vortexCtx vortexLA id s0 0).1
        (checkpoint vortexCtx vortexLA id s0 0).2) ((tick vortexCtx vortexLA id)^[1] s0) := by
  refine ⟨⟨⟨0, 0, fun k => if k then -Complex.I else 0⟩, fun k => if k then 1 else 0, ⟨0, 0, 0⟩, ⟨0, 0, 0⟩, ⟨0, 0, 0⟩,
      ⟨0, 0, fun k => if k then -Complex.I else 0⟩⟩,
    ⟨⟨0, 0, 0⟩, 0, ⟨0, 0, 0⟩, ⟨0, 0, 0⟩, ⟨0, 0, 0⟩, ⟨0, 0, 0⟩⟩, rfl, ?_, fun h => ?_⟩
  · funext k
    cases k <;> simp [vorticity, vortexCtx]
  have h1 := congrArg Complex.im (congrFun (h 1).2 true)
  norm_num [tick, advance, endOfTstep, integrate, solveLinear, computeRHS, vortexCtx, vortexLA, computeVW, checkpoint, initFromFile,
      Grid.over1, Grid.over2, Grid.Ksq, Grid.K4, hvOf, hgOf, maskVec, assembleAB, biharmonicCoeff, helmholtzCoeff, vorticity] at h1

/-- The same flow with the convection switched off. -/
noncomputable def stokesCtx : Ctx Bool ℂ ℂ := { vortexCtx with conv := fun _ _ => ⟨0, 0, 0⟩ }

/-- A case with a nonzero decaying mode to which `C36_restart_partial` applies. -/
example : ∃ s0 fresh : St Bool ℂ ℂ, s0.U.u true ≠ 0 ∧
    SameRun stokesCtx vortexLA id (initFromFile stokesCtx fresh (checkpoint stokesCtx vortexLA id s0 0).1
        (checkpoint stokesCtx vortexLA id s0 0).2) ((tick stokesCtx vortexLA id)^[1] s0) := by
  refine ⟨⟨⟨fun k => if k then 1 else 0, 0, 0⟩, 0, ⟨0, 0, 0⟩, ⟨0, 0, 0⟩, ⟨0, 0, 0⟩, ⟨fun k => if k then 1 else 0, 0, 0⟩⟩,
    ⟨⟨0, 0, 0⟩, 0, ⟨0, 0, 0⟩, ⟨0, 0, 0⟩, ⟨0, 0, 0⟩, ⟨0, 0, 0⟩⟩, by simp, ?_⟩
  refine C36_restart_partial stokesCtx vortexLA id vortex_solves.tdmaD ?_ (fun _ => rfl) rfl rfl ?_ (fun _ _ _ => rfl) _ _ rfl rfl 0 ?_ ?_
  · intro k
    cases k <;> simp [stokesCtx, vortexCtx, Grid.Ksq]
  · simp [vortexLA, stokesCtx, vortexCtx]
  · simp [checkpoint, advance, integrate, solveLinear, computeRHS, stokesCtx, vortexCtx, vortexLA, maskVec, assembleAB]
  · simp [checkpoint, advance, integrate, solveLinear, computeRHS, stokesCtx, vortexCtx, vortexLA, maskVec, assembleAB]

end SpectralDNS.Channel

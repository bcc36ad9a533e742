import Verif.Model.RayleighBenard
import Verif.Spec.RayleighBenard
import Verif.Props.ChannelRK3

/-!
# C63-C66: the Rayleigh-Benard solvers
-/

namespace SpectralDNS.Channel

open Spec.Channel

variable {κ B D : Type*} [DecidableEq κ] [AddCommGroup B] [Module ℂ B] [AddCommGroup D] [Module ℂ D]

/-- The discrete Boussinesq equations over a time interval `δ`: Crank-Nicolson for viscosity and heat conduction, momentum forced by the
vector `h` and by the buoyancy of the temperature `T`, temperature losing the convective term `Q`; the new temperature takes the boundary
values. `vm`, `wm` are the mean velocities at the start. -/
def BoussinesqEq (r : RBCtx κ B D) (δ : ℝ) (h : Vec κ D) (T : Temp κ D) (Q : κ → D) (U : Vel κ B D) (g : κ → D) (vm wm : D)
    (phi : Temp κ D) (U' : Vel κ B D) (g' : κ → D) (phi' : Temp κ D) : Prop :=
  let c := r.c
  (∀ k, k ≠ c.G.zero → CrankNicolson (lap c.M.BBB c.M.ABB (c.G.Ksq k)) (bilap c.M.BBB c.M.ABB c.M.SBB (c.G.Ksq k)) c.nu δ
      (forceU c.M.BBD c.M.CBD (c.G.Ksq k) (c.G.X1 k) (c.G.X2 k) (h.c0 k) (h.c1 k) (h.c2 k)
        + forceT (c.G.Ksq k) (c.M.BBD (T.d k) + weakLinear ((r.btt0 : ℂ) • r.e0) ((r.btt1 : ℂ) • r.e1) (T.p k) (T.q k)))
      (U.u k) (U'.u k)) ∧
  (∀ k, CrankNicolson c.M.BDD (lap c.M.BDD c.M.ADD (c.G.Ksq k)) c.nu δ (forceG c.M.BDD (c.G.X1 k) (c.G.X2 k) (h.c1 k) (h.c2 k))
      (g k) (g' k)) ∧
  CrankNicolson c.M.BDD0 c.M.ADD0 c.nu δ (c.M.BDD0 (h.c1 c.G.zero) - c.Sk) vm (U'.v c.G.zero) ∧
  CrankNicolson c.M.BDD0 c.M.ADD0 c.nu δ (c.M.BDD0 (h.c2 c.G.zero)) wm (U'.w c.G.zero) ∧
  (∀ k, CrankNicolson r.BDDR (lap r.BDDR r.ADDR (c.G.Ksq k)) r.kappa δ (-Q k) (phi.d k) (phi'.d k)) ∧
  phi'.p = r.bcp ∧ phi'.q = r.bcq

/-- Extrapolation of the temperature to the middle of the step. -/
noncomputable def ab2T (T Told : Temp κ D) : Temp κ D :=
  ⟨fun k => (3 / 2 : ℂ) • T.d k - (1 / 2 : ℂ) • Told.d k, fun k => 3 / 2 * T.p k - 1 / 2 * Told.p k,
   fun k => 3 / 2 * T.q k - 1 / 2 * Told.q k⟩

/-- Extrapolated convection times the mask. -/
noncomputable def ab2Vec (mask : Option (κ → ℝ)) (N Nold : Vec κ D) : Vec κ D :=
  ⟨fun k => ab2Mid (maskAt mask k) (N.c0 k) (Nold.c0 k), fun k => ab2Mid (maskAt mask k) (N.c1 k) (Nold.c1 k),
   fun k => ab2Mid (maskAt mask k) (N.c2 k) (Nold.c2 k)⟩

/-- Weak divergence of the heat flux carried by the velocity `U` and the temperature `T`, times the mask. -/
noncomputable def heatConv (r : RBCtx κ B D) (U : Vel κ B D) (T : Temp κ D) (k : κ) : D :=
  (maskAt r.c.mask k : ℂ) • weakDiv r.c.M.BDD r.c.M.CDB (r.c.G.K1 k) (r.c.G.K2 k) (r.prodB T U.u k) (r.prodD T U.v k)
    (r.prodD T U.w k)

omit [DecidableEq κ] [Module ℂ D] [AddCommGroup D] in
theorem maskT_eq [AddCommGroup D] [Module ℂ D] (mask : Option (κ → ℝ)) (N : κ → D) (k : κ) :
    maskT mask N k = (maskAt mask k : ℂ) • N k := by
  cases mask <;> simp [maskT, maskAt]

omit [DecidableEq κ] in
theorem phiAb_eq (T Told : Temp κ D) : phiAb T Told = ab2T T Told := by
  ext k <;> simp only [phiAb, ab2T] <;> norm_num

omit [DecidableEq κ] in
theorem divRB_eq (r : RBCtx κ B D) (U : Vel κ B D) (T : Temp κ D) (k : κ) :
    maskT r.c.mask (divRB r U T) k = heatConv r U T k := by
  rw [maskT_eq, heatConv, divRB, weakDiv, map_add]
  congr 1
  abel

omit [DecidableEq κ] in
theorem buoyancy_eq (r : RBCtx κ B D) (T : Temp κ D) (k : κ) :
    buoyancy r T k = forceT (r.c.G.Ksq k)
      (r.c.M.BBD (T.d k) + weakLinear ((r.btt0 : ℂ) • r.e0) ((r.btt1 : ℂ) • r.e1) (T.p k) (T.q k)) := by
  have h : (0.5 : ℂ) = 1 / 2 := by norm_num
  rw [buoyancy, forceT, weakLinear, h]
  match_scalars <;> ring

/-- C63 for one step of KMM_RB from any context, provided the matrices inside `TC` are those of the temperature space; missing: they are
not, see `C63_quadrature_false`. The velocity which convects the temperature is the average of `U_hat` and `U_hat0`. -/
theorem C63_step_partial (r : RBCtx κ B D) (la : LA κ B D) (solveT : κ → D → D) (hnu : r.c.nu ≠ 0) (hdt : r.c.dt ≠ 0) (hk : r.kappa ≠ 0)
    (hA : r.ADDT = r.ADDR) (hBT : r.BDDT = r.BDDR)
    (hla : la.Solves r.c.nu r.c.dt r.c.G r.c.M) (hT : SolvesT r 1 solveT) (s : RBSt κ B D) :
    let s' := integrateRB r la solveT s
    BoussinesqEq r r.c.dt (ab2Vec r.c.mask (r.c.conv s.s.U s.s.g) s.s.H1) (ab2T s.phi0 s.phi1)
      (heatConv r (meanVel s.s.U s.s.U0) (ab2T s.phi0 s.phi1)) s.s.U s.s.g (s.s.U0.v r.c.G.zero) (s.s.U0.w r.c.G.zero) s.phi0
      s'.s.U s'.s.g s'.phi := by
  intro s'
  have hdt' : (r.c.dt : ℂ) ≠ 0 := by exact_mod_cast hdt
  have hk' : (r.kappa : ℂ) ≠ 0 := by exact_mod_cast hk
  obtain ⟨-, h2, h3, h4⟩ := C34_step r.c la hnu hdt hla s.s
  refine ⟨fun k hk => ?_, h2, ?_, ?_, fun k => ?_, rfl, rfl⟩
  · have h := hla.biharmonicU k ((computeRHSRB r s).2.1 k)
    have e : s'.s.U.u k = la.biharmonicU k ((computeRHSRB r s).2.1 k) := by
      simp [s', integrateRB, solveLinearRB, solveLinear, computeRHSRB, computeRHS, Function.update_of_ne hk]
    rw [e]
    generalize la.biharmonicU k ((computeRHSRB r s).2.1 k) = x at h
    simp only [computeRHSRB, computeRHS, hvOf_eq, ab_c0, ab_c1, ab_c2, biharmonicCoeff, buoyancy_eq, phiAb_eq] at h
    simp only [ab2Vec]
    generalize forceU r.c.M.BBD r.c.M.CBD _ _ _ _ _ _ = F at h ⊢
    generalize forceT (B := B) _ _ = F' at h ⊢
    simp only [CrankNicolson, lap, bilap, LinearMap.add_apply, LinearMap.sub_apply, LinearMap.smul_apply]
    simp only [Grid.K4] at h
    push_cast at h ⊢
    rw [← sub_eq_zero] at h ⊢
    rw [← h]
    module
  · have e : s'.s.U.v r.c.G.zero = (integrate r.c la s.s).U.v r.c.G.zero := by
      simp [s', integrateRB, solveLinearRB, solveLinear, computeRHSRB, integrate]
    rw [e]
    exact h3
  · have e : s'.s.U.w r.c.G.zero = (integrate r.c la s.s).U.w r.c.G.zero := by
      simp [s', integrateRB, solveLinearRB, solveLinear, computeRHSRB, integrate]
    rw [e]
    exact h4
  · have h := hT k ((computeRHSRB r s).2.2.2 k)
    change -r.ADDR (s'.phi.d k) + _ • r.BDDR (s'.phi.d k) = _ at h
    generalize s'.phi.d k = x at h
    simp only [computeRHSRB, divRB_eq, phiAb_eq, tcMatvec, hA, hBT] at h
    generalize heatConv r _ _ k = F at h ⊢
    simp only [CrankNicolson, lap, LinearMap.sub_apply, LinearMap.smul_apply]
    push_cast at h ⊢
    rw [← sub_eq_zero] at h ⊢
    refine Eq.trans ?_ ((congrArg (fun z => ((r.kappa * r.c.dt / 2 : ℂ)) • z) h).trans (smul_zero _))
    match_scalars <;> field_simp <;> ring

omit [DecidableEq κ] in
theorem meanVel_self (U : Vel κ B D) : meanVel U U = U := by
  ext k <;> simp only [meanVel]
  all_goals
    rw [← two_smul ℂ, smul_smul]
    norm_num

/-- C63 along a whole run of KMM_RB, with the same proviso, started as the demo does (RayleighBenard.py:15-29: `phi_hat0` and `phi_hat1` are copies of
`phi_hat`; all velocity arrays are zero, here only `U_hat0 = U_hat` is needed): step `n` solves the Boussinesq equations with velocity
convection and buoyancy extrapolated from the current and the previous level; the temperature is convected with the extrapolated
temperature and the velocity at the start of the step. -/
theorem C63_run_partial (r : RBCtx κ B D) (la : LA κ B D) (solveT : κ → D → D) (hnu : r.c.nu ≠ 0) (hdt : r.c.dt ≠ 0) (hk : r.kappa ≠ 0)
    (hA : r.ADDT = r.ADDR) (hBT : r.BDDT = r.BDDR)
    (hla : la.Solves r.c.nu r.c.dt r.c.G r.c.M) (hT : SolvesT r 1 solveT) (s0 : RBSt κ B D) (hU : s0.s.U0 = s0.s.U)
    (hp0 : s0.phi0 = s0.phi) (hp1 : s0.phi1 = s0.phi) (n : ℕ) :
    let s := fun n => (tickRB r la solveT)^[n] s0
    let N := fun n => r.c.conv (s n).s.U (s n).s.g
    let Nold := fun n => match n with
      | 0 => s0.s.H1
      | m + 1 => N m
    let Told := fun n => match n with
      | 0 => s0.phi
      | m + 1 => (s m).phi
    BoussinesqEq r r.c.dt (ab2Vec r.c.mask (N n) (Nold n)) (ab2T (s n).phi (Told n))
      (heatConv r (s n).s.U (ab2T (s n).phi (Told n))) (s n).s.U (s n).s.g ((s n).s.U.v r.c.G.zero) ((s n).s.U.w r.c.G.zero)
      (s n).phi (s (n + 1)).s.U (s (n + 1)).s.g (s (n + 1)).phi := by
  intro s N Nold Told
  have hs : ∀ n, s (n + 1) = tickRB r la solveT (s n) := fun n => Function.iterate_succ_apply' _ _ _
  have hU0 : ∀ n, (s n).s.U0 = (s n).s.U := by
    intro n
    cases n with
    | zero => exact hU
    | succ n => rw [hs]; rfl
  have hH1 : ∀ n, (s n).s.H1 = Nold n := by
    intro n
    cases n with
    | zero => rfl
    | succ n => rw [hs]; rfl
  have hphi0 : ∀ n, (s n).phi0 = (s n).phi := by
    intro n
    cases n with
    | zero => exact hp0
    | succ n => rw [hs]; rfl
  have hphi1 : ∀ n, (s n).phi1 = Told n := by
    intro n
    cases n with
    | zero => exact hp1
    | succ n =>
      rw [hs]
      exact hphi0 n
  have h := C63_step_partial r la solveT hnu hdt hk hA hBT hla hT (s n)
  rw [hU0, hH1, hphi0, hphi1, meanVel_self] at h
  rw [hs]
  exact h

/-- `x N + y N'` for the temperature. -/
noncomputable def combineT (mask : Option (κ → ℝ)) (x y : ℝ) (N N' : κ → D) (k : κ) : D :=
  (maskAt mask k : ℂ) • ((x : ℂ) • N k + (y : ℂ) • N' k)

/-- The stored arrays are those of the convections `N` and `NT`. -/
def StoredRB (r : RBCtx κ B D) (N : Vec κ D) (NT : κ → D) (s : RB3St κ B D) : Prop :=
  Stored r.c N s.s ∧ s.N0 = maskT r.c.mask NT

theorem substepRB_stored (r : RBCtx κ B D) (convT : Vel κ B D → Temp κ D → κ → D) (la : Fin 3 → LA κ B D)
    (solveT : Fin 3 → κ → D → D) (rk : Fin 3) (s : RB3St κ B D) :
    StoredRB r (r.c.conv s.s.U s.s.g) (convT s.s.U s.phi) (substepRB r convT la solveT rk s) :=
  ⟨⟨fun _ => rfl, fun _ => rfl, rfl, rfl⟩, rfl⟩

theorem substepRB_eq (r : RBCtx κ B D) (convT : Vel κ B D → Temp κ D → κ → D) (la : Fin 3 → LA κ B D) (solveT : Fin 3 → κ → D → D)
    (hnu : r.c.nu ≠ 0) (hdt : r.c.dt ≠ 0) (hk : r.kappa ≠ 0) (hA : r.ADDT = r.ADDR) (hBT : r.BDDT = r.BDDR) (rk : Fin 3)
    (hla : (la rk).Solves3 r.c.nu r.c.dt (rkA rk + rkB rk) r.c.G r.c.M) (hT : SolvesT r (rkA rk + rkB rk) (solveT rk))
    (s : RB3St κ B D) (γ : ℝ) (hγ : rkA rk + rkB rk = γ) (hγ0 : γ ≠ 0) (N' : Vec κ D) (NT' : κ → D)
    (hN' : rkB rk = 0 ∨ StoredRB r N' NT' s) :
    let s' := substepRB r convT la solveT rk s
    BoussinesqEq r (γ * r.c.dt) (combine r.c.mask (rkA rk / γ) (rkB rk / γ) (r.c.conv s.s.U s.s.g) N') s.phi
      (combineT r.c.mask (rkA rk / γ) (rkB rk / γ) (convT s.s.U s.phi) NT') s.s.U s.s.g (s.s.U.v r.c.G.zero) (s.s.U.w r.c.G.zero)
      s.phi s'.s.U s'.s.g s'.phi := by
  intro s'
  have hdt' : (r.c.dt : ℂ) ≠ 0 := by exact_mod_cast hdt
  have hk' : (r.kappa : ℂ) ≠ 0 := by exact_mod_cast hk
  have hγ' : (γ : ℂ) ≠ 0 := by exact_mod_cast hγ0
  obtain ⟨-, h2, h3, h4⟩ := substep_eq r.c la hnu hdt rk hla s.s γ hγ hγ0 N' (hN'.imp id fun h => h.1)
  rw [hγ] at hla hT
  refine ⟨fun k hk => ?_, h2, ?_, ?_, fun k => ?_, rfl, rfl⟩
  · have hs : (rkB rk : ℂ) • s.s.hv k = (rkB rk : ℂ) • hvOf r.c.G r.c.M (maskVec r.c.mask N') k := by
      rcases hN' with h | h
      · rw [h]; simp
      · rw [h.1.1]
    have h := hla.biharmonicU k ((computeRHS3 r.c rk s.s).2.1 k + ((r.c.dt * (rkA rk + rkB rk) : ℝ) : ℂ) • buoyancy r s.phi k)
    have e : s'.s.U.u k = (la rk).biharmonicU k
        ((computeRHS3 r.c rk s.s).2.1 k + ((r.c.dt * (rkA rk + rkB rk) : ℝ) : ℂ) • buoyancy r s.phi k) := by
      simp [s', substepRB, solveLinear3, Function.update_of_ne hk]
    rw [e]
    generalize (la rk).biharmonicU k _ = x at h
    rw [buoyancy_eq] at h
    generalize forceT (B := B) _ _ = F' at h ⊢
    simp only [computeRHS3, hs, hγ, hvOf, maskVec_c0, maskVec_c1, maskVec_c2, biharmonicCoeff, Grid.K4, map_smul] at h
    simp only [CrankNicolson, lap, bilap, forceU, combine, LinearMap.add_apply, LinearMap.sub_apply, LinearMap.smul_apply, map_add,
      map_smul]
    push_cast at h ⊢
    rw [← sub_eq_zero] at h ⊢
    rw [← h]
    match_scalars <;> field_simp <;> ring
  · have e : s'.s.U.v r.c.G.zero = (substep r.c la rk s.s).U.v r.c.G.zero := by
      simp [s', substepRB, solveLinear3, substep]
    rw [e]
    exact h3
  · have e : s'.s.U.w r.c.G.zero = (substep r.c la rk s.s).U.w r.c.G.zero := by
      simp [s', substepRB, solveLinear3, substep]
    rw [e]
    exact h4
  · have hs : (rkB rk : ℂ) • s.N0 k = (rkB rk : ℂ) • maskT r.c.mask NT' k := by
      rcases hN' with h | h
      · rw [h]; simp
      · rw [h.2]
    have h := hT k (((-2 / r.kappa / (rkA rk + rkB rk) : ℝ) : ℂ) • ((rkA rk : ℂ) • maskT r.c.mask (convT s.s.U s.phi) k
        + (rkB rk : ℂ) • s.N0 k) + tcMatvec r 1 (2 / r.kappa / r.c.dt / (rkA rk + rkB rk) - r.c.G.Ksq k) (s.phi.d k))
    change -r.ADDR (s'.phi.d k) + _ • r.BDDR (s'.phi.d k) = _ at h
    generalize s'.phi.d k = x at h
    rw [hs] at h
    simp only [hγ, tcMatvec, maskT_eq, hA, hBT] at h
    simp only [CrankNicolson, lap, combineT, LinearMap.sub_apply, LinearMap.smul_apply]
    push_cast at h ⊢
    rw [← sub_eq_zero] at h ⊢
    refine Eq.trans ?_ ((congrArg (fun z => ((r.kappa * (γ * r.c.dt) / 2 : ℂ)) • z) h).trans (smul_zero _))
    match_scalars <;> field_simp <;> ring

/-- C63 for KMMRK3_RB: a step is three substeps covering 8/15, 2/15 and 1/3 of the step. The matrices inside `TC` are those of `ST`, the
same as those of the temperature space for the default quadrature `Dquad = GC`. Nothing is assumed about the arrays left by
the previous step. -/
theorem C63_rk3 (r : RBCtx κ B D) (convT : Vel κ B D → Temp κ D → κ → D) (la : Fin 3 → LA κ B D) (solveT : Fin 3 → κ → D → D)
    (hnu : r.c.nu ≠ 0) (hdt : r.c.dt ≠ 0) (hk : r.kappa ≠ 0) (hA : r.ADDT = r.ADDR) (hBT : r.BDDT = r.BDDR)
    (hla : ∀ rk, (la rk).Solves3 r.c.nu r.c.dt (rkA rk + rkB rk) r.c.G r.c.M) (hT : ∀ rk, SolvesT r (rkA rk + rkB rk) (solveT rk))
    (s : RB3St κ B D) :
    ∃ s1 s2, let z := r.c.G.zero
      let N := fun t : RB3St κ B D => r.c.conv t.s.U t.s.g
      let NT := fun t : RB3St κ B D => convT t.s.U t.phi
      let s3 := integrateRB3 r convT la solveT s
      BoussinesqEq r (8 / 15 * r.c.dt) (combine r.c.mask 1 0 (N s) (N s)) s.phi (combineT r.c.mask 1 0 (NT s) (NT s)) s.s.U s.s.g
        (s.s.U.v z) (s.s.U.w z) s.phi s1.s.U s1.s.g s1.phi ∧
      BoussinesqEq r (2 / 15 * r.c.dt) (combine r.c.mask (25 / 8) (-17 / 8) (N s1) (N s)) s1.phi
        (combineT r.c.mask (25 / 8) (-17 / 8) (NT s1) (NT s)) s1.s.U s1.s.g (s1.s.U.v z) (s1.s.U.w z) s1.phi s2.s.U s2.s.g s2.phi ∧
      BoussinesqEq r (1 / 3 * r.c.dt) (combine r.c.mask (9 / 4) (-5 / 4) (N s2) (N s1)) s2.phi
        (combineT r.c.mask (9 / 4) (-5 / 4) (NT s2) (NT s1)) s2.s.U s2.s.g (s2.s.U.v z) (s2.s.U.w z) s2.phi s3.s.U s3.s.g s3.phi := by
  obtain ⟨h0, h1, h2, -⟩ := C35_fractions
  refine ⟨substepRB r convT la solveT 0 s, substepRB r convT la solveT 1 (substepRB r convT la solveT 0 s), ?_, ?_, ?_⟩
  · have h := substepRB_eq r convT la solveT hnu hdt hk hA hBT 0 (hla 0) (hT 0) s _ h0 (by norm_num) (r.c.conv s.s.U s.s.g)
      (convT s.s.U s.phi) (Or.inl rfl)
    have e1 : rkA 0 / (8 / 15) = 1 := by show (8 / 15 : ℝ) / (8 / 15) = 1; norm_num
    have e2 : rkB 0 / (8 / 15) = 0 := by show (0 : ℝ) / (8 / 15) = 0; norm_num
    rwa [e1, e2] at h
  · have h := substepRB_eq r convT la solveT hnu hdt hk hA hBT 1 (hla 1) (hT 1) (substepRB r convT la solveT 0 s) _ h1 (by norm_num) _ _
      (Or.inr (substepRB_stored r convT la solveT 0 s))
    have e1 : rkA 1 / (2 / 15) = 25 / 8 := by show (5 / 12 : ℝ) / (2 / 15) = _; norm_num
    have e2 : rkB 1 / (2 / 15) = -17 / 8 := by show (-17 / 60 : ℝ) / (2 / 15) = _; norm_num
    rwa [e1, e2] at h
  · have h := substepRB_eq r convT la solveT hnu hdt hk hA hBT 2 (hla 2) (hT 2) (substepRB r convT la solveT 1 (substepRB r convT la solveT 0 s))
      _ h2 (by norm_num) _ _ (Or.inr (substepRB_stored r convT la solveT 1 _))
    have e1 : rkA 2 / (1 / 3) = 9 / 4 := by show (3 / 4 : ℝ) / (1 / 3) = _; norm_num
    have e2 : rkB 2 / (1 / 3) = -5 / 4 := by show (-5 / 12 : ℝ) / (1 / 3) = _; norm_num
    rwa [e1, e2] at h

/-! ## The quadrature of `TC` -/

/-- With the Gauss-Lobatto mass matrix inside `TC` and the Gauss mass matrix in the solver, for every grid: the right-hand side of the
temperature equation has an extra term, `π/2 (2/κ/dt - K2)` times the highest coefficient, in the last row. -/
theorem C63_defect (N : ℕ) (hN : 3 ≤ N) (v : Fin (N - 2) → ℂ) (i : Fin (N - 2)) :
    (massMatrix true N).mulVec v i - (massMatrix false N).mulVec v i = if (i : ℕ) + 3 = N then ((Real.pi / 2 : ℝ) : ℂ) * v i else 0 := by
  simp only [Matrix.mulVec, dotProduct, ← Finset.sum_sub_distrib, ← sub_mul]
  rw [Finset.sum_eq_single i]
  · have hi := i.2
    simp only [massMatrix, if_true, ck]
    by_cases h : (i : ℕ) + 3 = N
    · have h1 : (i : ℕ) + 2 ≠ 0 := by omega
      have h2 : (i : ℕ) + 2 + 1 = N := by omega
      have h3 : ¬ (i : ℕ) + 1 = N := by omega
      by_cases h0 : (i : ℕ) = 0
      · simp [h, h2, h0]
        simp [show (N = 3) by omega]
        left
        ring
      · simp [h, h2, h3, h0]
        left
        ring
    · have h2 : ¬ (i : ℕ) + 2 + 1 = N := by omega
      have h3 : ¬ (i : ℕ) + 1 = N := by omega
      simp [h, h2, h3]
  · intro j _ hj
    simp [massMatrix, Ne.symm hj]
  · simp

/-- Heat conduction on four points, one wavenumber pair (the mean); matrices of the code. -/
noncomputable def quadRB (kappa dt : ℝ) : RBCtx Unit ℂ (Fin 2 → ℂ) where
  c := ⟨1, dt, ⟨fun _ => 0, fun _ => 0, fun _ => 0, fun _ => 0, ()⟩, ⟨0, 0, 0, 0, 0, 0, 0, 0, 0, 0⟩, none, fun _ _ => ⟨0, 0, 0⟩, 0⟩
  kappa := kappa
  e0 := 0
  e1 := 0
  btt0 := 0
  btt1 := 0
  prodB _ _ _ := 0
  prodD _ _ _ := 0
  bcp _ := 1
  bcq _ := 0
  ADDR := (stiffMatrix 4).mulVecLin
  BDDR := (massMatrix false 4).mulVecLin
  ADDT := (stiffMatrix 4).mulVecLin
  BDDT := (massMatrix true 4).mulVecLin

theorem stiff4 (v : Fin 2 → ℂ) : (stiffMatrix 4).mulVecLin v = ![-(4 * Real.pi : ℂ) * v 0, -(12 * Real.pi : ℂ) * v 1] := by
  funext i
  fin_cases i <;> simp [stiffMatrix, Matrix.mulVec, dotProduct, Fin.sum_univ_two] <;> norm_num <;> ring_nf <;> simp

theorem mass4 (gl : Bool) (v : Fin 2 → ℂ) :
    (massMatrix gl 4).mulVecLin v = ![(3 * Real.pi / 2 : ℂ) * v 0, (Real.pi / 2 * (if gl then 3 else 2) : ℂ) * v 1] := by
  funext i
  fin_cases i <;> cases gl <;> simp [massMatrix, ck, Matrix.mulVec, dotProduct, Fin.sum_univ_two] <;> norm_num <;> left <;> ring

/-- C63 is false for KMM_RB: pure heat conduction with the matrices of the code. On four points and for any `kappa`, `dt` with
`48 kappa dt < 2` the exact solver makes a nonzero highest temperature coefficient grow by a constant factor larger than one in every
step, while the Crank-Nicolson step of heat conduction shrinks it. -/
theorem C63_quadrature_false (kappa dt : ℝ) (hk : 0 < kappa) (hdt : 0 < dt) (h : 48 * (kappa * dt) < 2) (la : LA Unit ℂ (Fin 2 → ℂ))
    (solveT : Unit → (Fin 2 → ℂ) → Fin 2 → ℂ) (hT : SolvesT (quadRB kappa dt) 1 solveT) (s0 : RBSt Unit ℂ (Fin 2 → ℂ))
    (h0 : s0.phi0 = s0.phi) :
    ∃ q : ℝ, 1 < q ∧ ∀ n, ((tickRB (quadRB kappa dt) la solveT)^[n] s0).phi.d () 1 = (q : ℂ) ^ n * s0.phi.d () 1 := by
  set x := 2 / kappa / dt with hx
  have hx48 : 48 < x := by
    rw [hx, div_div, lt_div_iff₀ (by positivity)]
    exact h
  have hpi : (Real.pi : ℂ) ≠ 0 := by exact_mod_cast Real.pi_ne_zero
  refine ⟨(3 / 2 * x - 12) / (12 + x), by rw [lt_div_iff₀ (by linarith)]; linarith, fun n => ?_⟩
  have hstep : ∀ s : RBSt Unit ℂ (Fin 2 → ℂ), (tickRB (quadRB kappa dt) la solveT s).phi.d () 1 =
      (((3 / 2 * x - 12) / (12 + x) : ℝ) : ℂ) * s.phi0.d () 1 := by
    intro s
    have h1 := congrFun (hT () ((computeRHSRB (quadRB kappa dt) s).2.2.2 ())) 1
    change (-(quadRB kappa dt).ADDR ((tickRB (quadRB kappa dt) la solveT s).phi.d ())
      + _ • (quadRB kappa dt).BDDR ((tickRB (quadRB kappa dt) la solveT s).phi.d ())) 1 = _ at h1
    generalize (tickRB (quadRB kappa dt) la solveT s).phi.d () = y at h1 ⊢
    have hr : (computeRHSRB (quadRB kappa dt) s).2.2.2 () 1 = -(12 * Real.pi : ℂ) * s.phi0.d () 1
        + (x : ℂ) * ((Real.pi / 2 * 3 : ℂ) * s.phi0.d () 1) := by
      have hd : maskT (quadRB kappa dt).c.mask
          (divRB (quadRB kappa dt) (meanVel s.s.U s.s.U0) (phiAb s.phi0 s.phi1)) () = 0 := by
        rw [maskT_eq, divRB]
        simp [quadRB]
      have hG : (quadRB kappa dt).c.G.Ksq () = 0 := by simp [quadRB, Grid.Ksq]
      simp only [computeRHSRB, hd, tcMatvec, hG]
      have e1 := congrFun (stiff4 (s.phi0.d ())) 1
      have e2 := congrFun (mass4 true (s.phi0.d ())) 1
      simp only [Matrix.mulVecLin_apply] at e1 e2
      simp only [quadRB, Pi.add_apply, Pi.smul_apply, Matrix.mulVecLin_apply, e1, e2]
      simp [hx]
    rw [hr] at h1
    have hG : (quadRB kappa dt).c.G.Ksq () = 0 := by simp [quadRB, Grid.Ksq]
    rw [hG] at h1
    have e1 := congrFun (stiff4 y) 1
    have e2 := congrFun (mass4 false y) 1
    simp only [Matrix.mulVecLin_apply] at e1 e2
    simp only [quadRB, Pi.add_apply, Pi.neg_apply, Pi.smul_apply, Matrix.mulVecLin_apply, e1, e2] at h1
    have hx0 : ((12 : ℂ) + x) ≠ 0 := by
      have : ((12 + x : ℝ) : ℂ) ≠ 0 := by exact_mod_cast (by linarith : (12 + x : ℝ) ≠ 0)
      push_cast at this
      exact this
    have hxx : (2 / kappa / 1 / dt : ℝ) = x := by rw [hx, div_one]
    simp only [zero_add, hxx] at h1
    simp at h1
    push_cast
    rw [div_mul_eq_mul_div, eq_div_iff hx0]
    apply mul_left_cancel₀ hpi
    linear_combination h1
  have hp : ∀ n, ((tickRB (quadRB kappa dt) la solveT)^[n] s0).phi0 = ((tickRB (quadRB kappa dt) la solveT)^[n] s0).phi := by
    intro n
    cases n with
    | zero => exact h0
    | succ n => rw [Function.iterate_succ_apply']; rfl
  induction n with
  | zero => simp
  | succ n ih =>
    rw [Function.iterate_succ_apply', hstep, hp, ih]
    ring

/-! ## The conduction state -/

/-- Nothing moves and the temperature is the linear profile between the plates. -/
def Conducting (r : RBCtx κ B D) (U : Vel κ B D) (g : κ → D) (phi : Temp κ D) : Prop :=
  U = ⟨0, 0, 0⟩ ∧ g = 0 ∧ phi = ⟨0, r.bcp, r.bcq⟩

/-- What the conduction state needs: no force without motion, no volume source, linear solvers which return zero for zero (they
are uniquely solvable), boundary values at the mean mode only. -/
structure Quiet (r : RBCtx κ B D) : Prop where
  conv : r.c.conv ⟨0, 0, 0⟩ 0 = ⟨0, 0, 0⟩
  source : r.c.Sk = 0
  bcp : ∀ k, k ≠ r.c.G.zero → r.bcp k = 0
  bcq : ∀ k, k ≠ r.c.G.zero → r.bcq k = 0
  ksq : r.c.G.Ksq r.c.G.zero = 0

/-- The linear solvers return zero for zero. -/
structure ZeroLA (la : LA κ B D) (solveT : κ → D → D) : Prop where
  g : ∀ k, la.helmholtzG k 0 = 0
  u : ∀ k, la.biharmonicU k 0 = 0
  u0 : la.helmholtzU0 0 = 0
  d : la.tdmaD 0 = 0
  t : ∀ k, solveT k 0 = 0

omit [DecidableEq κ] in
theorem buoyancy_conducting (r : RBCtx κ B D) (hq : Quiet r) (k : κ) : buoyancy r ⟨0, r.bcp, r.bcq⟩ k = 0 := by
  by_cases hk : k = r.c.G.zero
  · simp [buoyancy, hk, hq.ksq]
  · simp [buoyancy, hq.bcp k hk, hq.bcq k hk]

omit [DecidableEq κ] in
theorem phiAb_self (T : Temp κ D) : phiAb T T = T := by
  ext k
  · simp only [phiAb, ← sub_smul]; norm_num
  · simp only [phiAb, ← sub_mul]; norm_num
  · simp only [phiAb, ← sub_mul]; norm_num

/-- C64 for KMM_RB: the conduction state is an exact steady state for every `nu`, `kappa` and `dt`, after any number of steps. -/
theorem C64_kmm_rb (r : RBCtx κ B D) (la : LA κ B D) (solveT : κ → D → D) (hq : Quiet r) (hl : ZeroLA la solveT)
    (hB : ∀ T k, r.prodB T 0 k = 0) (hD : ∀ T k, r.prodD T 0 k = 0) (s0 : RBSt κ B D)
    (h : Conducting r s0.s.U s0.s.g s0.phi) (h0 : s0.phi0 = s0.phi) (h1 : s0.phi1 = s0.phi) (hU0 : s0.s.U0 = s0.s.U)
    (hH : s0.s.H1 = ⟨0, 0, 0⟩) (n : ℕ) :
    let s := (tickRB r la solveT)^[n] s0
    Conducting r s.s.U s.s.g s.phi := by
  suffices hs : let s := (tickRB r la solveT)^[n] s0
      Conducting r s.s.U s.s.g s.phi ∧ s.phi0 = s.phi ∧ s.phi1 = s.phi ∧ s.s.U0 = s.s.U ∧ s.s.H1 = ⟨0, 0, 0⟩ from hs.1
  induction n with
  | zero => exact ⟨h, h0, h1, hU0, hH⟩
  | succ n ih =>
    rw [Function.iterate_succ_apply']
    generalize (tickRB r la solveT)^[n] s0 = s at ih
    obtain ⟨⟨a1, a2, a3⟩, a4, a5, a6, a7⟩ := ih
    have hH : r.c.conv s.s.U s.s.g = ⟨0, 0, 0⟩ := by rw [a1, a2, hq.conv]
    have hH0 : maskVec r.c.mask (assembleAB (⟨0, 0, 0⟩ : Vec κ D) ⟨0, 0, 0⟩) = ⟨0, 0, 0⟩ := by
      ext k
      · rw [ab_c0]; simp [ab2Mid]
      · rw [ab_c1]; simp [ab2Mid]
      · rw [ab_c2]; simp [ab2Mid]
    have hm : meanVel s.s.U s.s.U0 = ⟨0, 0, 0⟩ := by rw [a6, a1, meanVel_self]
    have hdiv : ∀ T k, divRB r ⟨0, 0, 0⟩ T k = 0 := by intro T k; simp [divRB, hB, hD]
    have hp : s.phi0 = ⟨0, r.bcp, r.bcq⟩ := a4.trans a3
    have hp1 : s.phi1 = ⟨0, r.bcp, r.bcq⟩ := a5.trans a3
    have e0 : ∀ k, (computeRHSRB r s).2.1 k = 0 := by
      intro k
      simp only [computeRHSRB, computeRHS, a1, a2, hq.conv, a7, hH0, hp, hp1, phiAb_self, buoyancy_conducting r hq]
      simp [hvOf, biharmonicCoeff]
    have e1 : ∀ k, (computeRHSRB r s).2.2.1 k = 0 := by
      intro k
      simp only [computeRHSRB, computeRHS, a1, a2, hq.conv, a7, hH0]
      simp [hgOf, helmholtzCoeff]
    have e2 : ∀ k, (computeRHSRB r s).2.2.2 k = 0 := by
      intro k
      simp only [computeRHSRB, hp, hm, maskT_eq, hdiv]
      simp [tcMatvec]
    have hU : (tickRB r la solveT s).s.U = ⟨0, 0, 0⟩ := by
      ext k <;> by_cases hk : k = r.c.G.zero
      · simp [tickRB, endOfTstepRB, integrateRB, solveLinearRB, solveLinear, hk]
      · simp [tickRB, endOfTstepRB, integrateRB, solveLinearRB, solveLinear, Function.update_of_ne hk, e0, hl.u]
      · subst hk
        have : (computeRHSRB r s).1.s.H0 = ⟨0, 0, 0⟩ := by simp only [computeRHSRB, computeRHS, hH, a7, hH0]
        have hu0 : (computeRHSRB r s).1.s.U0 = ⟨0, 0, 0⟩ := a6.trans a1
        simp [tickRB, endOfTstepRB, integrateRB, solveLinearRB, solveLinear, this, hu0, hq.source, hl.u0]
      · simp [tickRB, endOfTstepRB, integrateRB, solveLinearRB, solveLinear, Function.update_of_ne hk, e0, e1, hl.u, hl.g, hl.d,
          computeVW]
      · subst hk
        have : (computeRHSRB r s).1.s.H0 = ⟨0, 0, 0⟩ := by simp only [computeRHSRB, computeRHS, hH, a7, hH0]
        have hu0 : (computeRHSRB r s).1.s.U0 = ⟨0, 0, 0⟩ := a6.trans a1
        simp [tickRB, endOfTstepRB, integrateRB, solveLinearRB, solveLinear, this, hu0, hl.u0]
      · simp [tickRB, endOfTstepRB, integrateRB, solveLinearRB, solveLinear, Function.update_of_ne hk, e0, e1, hl.u, hl.g, hl.d,
          computeVW]
    have hphi : (tickRB r la solveT s).phi = ⟨0, r.bcp, r.bcq⟩ := by
      ext k
      · simp [tickRB, endOfTstepRB, integrateRB, solveLinearRB, e2, hl.t]
      · rfl
      · rfl
    refine ⟨⟨hU, ?_, hphi⟩, rfl, ?_, rfl, hH⟩
    · funext k
      simp [tickRB, endOfTstepRB, integrateRB, solveLinearRB, solveLinear, e1, hl.g]
    · exact hp.trans hphi.symm

/-- C64 for KMMRK3_RB, with any temperature convection which vanishes without motion and any arrays left behind. -/
theorem C64_kmmrk3_rb (r : RBCtx κ B D) (convT : Vel κ B D → Temp κ D → κ → D) (la : Fin 3 → LA κ B D)
    (solveT : Fin 3 → κ → D → D) (hq : Quiet r) (hl : ∀ rk, ZeroLA (la rk) (solveT rk)) (hT : ∀ T, convT ⟨0, 0, 0⟩ T = 0)
    (s0 : RB3St κ B D) (h : Conducting r s0.s.U s0.s.g s0.phi) (n : ℕ) :
    let s := (integrateRB3 r convT la solveT)^[n] s0
    Conducting r s.s.U s.s.g s.phi := by
  have hst : ∀ (rk : Fin 3) (s : RB3St κ B D), Conducting r s.s.U s.s.g s.phi →
      (rkB rk = 0 ∨ (s.s.hv = 0 ∧ s.s.hg = 0 ∧ s.s.hm0 = 0 ∧ s.s.hm1 = 0 ∧ s.N0 = 0)) →
      Conducting r (substepRB r convT la solveT rk s).s.U (substepRB r convT la solveT rk s).s.g (substepRB r convT la solveT rk s).phi ∧
      ((substepRB r convT la solveT rk s).s.hv = 0 ∧ (substepRB r convT la solveT rk s).s.hg = 0 ∧
        (substepRB r convT la solveT rk s).s.hm0 = 0 ∧ (substepRB r convT la solveT rk s).s.hm1 = 0 ∧
        (substepRB r convT la solveT rk s).N0 = 0) := by
    intro rk s ⟨a1, a2, a3⟩ hb
    have hm0 : maskVec r.c.mask (⟨0, 0, 0⟩ : Vec κ D) = ⟨0, 0, 0⟩ := by
      ext k
      · rw [maskVec_c0]; simp
      · rw [maskVec_c1]; simp
      · rw [maskVec_c2]; simp
    have hH : maskVec r.c.mask (r.c.conv s.s.U s.s.g) = ⟨0, 0, 0⟩ := by rw [a1, a2, hq.conv, hm0]
    have bv : ∀ k, (rkB rk : ℂ) • s.s.hv k = 0 := by intro k; rcases hb with hb | hb <;> simp [hb]
    have bg : ∀ k, (rkB rk : ℂ) • s.s.hg k = 0 := by intro k; rcases hb with hb | hb <;> simp [hb]
    have bm0 : (rkB rk : ℂ) • s.s.hm0 = 0 := by rcases hb with hb | hb <;> simp [hb]
    have bm1 : (rkB rk : ℂ) • s.s.hm1 = 0 := by rcases hb with hb | hb <;> simp [hb]
    have bN : ∀ k, (rkB rk : ℂ) • s.N0 k = 0 := by intro k; rcases hb with hb | hb <;> simp [hb]
    have hN : maskT r.c.mask (convT s.s.U s.phi) = 0 := by
      funext k
      rw [maskT_eq, a1, hT]
      simp
    have e0 : ∀ k, (computeRHS3 r.c rk s.s).2.1 k = 0 := by
      intro k
      simp only [computeRHS3, a1, a2, hq.conv, hm0, bv]
      simp [hvOf, biharmonicCoeff]
    have e1 : ∀ k, (computeRHS3 r.c rk s.s).2.2 k = 0 := by
      intro k
      simp only [computeRHS3, a1, a2, hq.conv, hm0, bg]
      simp [hgOf, helmholtzCoeff]
    have e3 : (computeRHS3 r.c rk s.s).1.H = ⟨0, 0, 0⟩ := hH
    have e4 : (computeRHS3 r.c rk s.s).1.U = ⟨0, 0, 0⟩ := a1
    have e5 : (computeRHS3 r.c rk s.s).1.hm0 = s.s.hm0 := rfl
    have e6 : (computeRHS3 r.c rk s.s).1.hm1 = s.s.hm1 := rfl
    refine ⟨⟨?_, ?_, ?_⟩, ?_, ?_, ?_, ?_, hN⟩
    · ext k <;> by_cases hk : k = r.c.G.zero
      · simp [substepRB, solveLinear3, hk]
      · simp [substepRB, solveLinear3, Function.update_of_ne hk, e0, a3, buoyancy_conducting r hq, (hl rk).u]
      · subst hk
        simp [substepRB, solveLinear3, e3, e4, e5, bm0, hq.source, (hl rk).u0]
      · simp [substepRB, solveLinear3, Function.update_of_ne hk, e0, e1, a3, buoyancy_conducting r hq, (hl rk).u, (hl rk).g, (hl rk).d,
          computeVW]
      · subst hk
        simp [substepRB, solveLinear3, e3, e4, e6, bm1, (hl rk).u0]
      · simp [substepRB, solveLinear3, Function.update_of_ne hk, e0, e1, a3, buoyancy_conducting r hq, (hl rk).u, (hl rk).g, (hl rk).d,
          computeVW]
    · funext k
      simp [substepRB, solveLinear3, e1, (hl rk).g]
    · ext k
      · have e7 : s.phi.d k = 0 := by rw [a3]; rfl
        have e8 : maskT r.c.mask (convT s.s.U s.phi) k = 0 := by rw [hN]; rfl
        simp only [substepRB, e7, e8, bN]
        simp [tcMatvec, (hl rk).t]
      · rfl
      · rfl
    · funext k
      show hvOf r.c.G r.c.M (maskVec r.c.mask (r.c.conv s.s.U s.s.g)) k = 0
      simp [hH, hvOf]
    · funext k
      show hgOf r.c.G r.c.M (maskVec r.c.mask (r.c.conv s.s.U s.s.g)) k = 0
      simp [hH, hgOf]
    · simp [substepRB, solveLinear3, e3, hq.source]
    · simp [substepRB, solveLinear3, e3]
  induction n with
  | zero => exact h
  | succ n ih =>
    rw [Function.iterate_succ_apply']
    have a0 := hst 0 _ ih (Or.inl rfl)
    have a1 := hst 1 _ a0.1 (Or.inr a0.2)
    exact (hst 2 _ a1.1 (Or.inr a1.2)).1

/-! ## Restart -/

/-- The levels written to the checkpoint during step `n + 1` of KMM_RB (before `end_of_tstep`, __init__.py:96-112). -/
noncomputable def checkpointRB (r : RBCtx κ B D) (la : LA κ B D) (solveT : κ → D → D) (s0 : RBSt κ B D) (n : ℕ) :
    (Vel κ B D × Temp κ D) × (Vel κ B D × Temp κ D) :=
  let s := integrateRB r la solveT ((tickRB r la solveT)^[n] s0)
  ((s.s.U, s.phi), (s.s.U0, s.phi0))

/-- What a run shows: velocity and temperature. -/
def SameRB (r : RBCtx κ B D) (la : LA κ B D) (solveT : κ → D → D) (s t : RBSt κ B D) : Prop :=
  ∀ n, ((tickRB r la solveT)^[n] s).s.U = ((tickRB r la solveT)^[n] t).s.U ∧
    ((tickRB r la solveT)^[n] s).phi = ((tickRB r la solveT)^[n] t).phi

/-- Restarting KMM_RB ignores the newest checkpointed temperature: whatever is stored as level `'0'`, the run is the same from
the first step on. -/
theorem C65_newest_ignored (r : RBCtx κ B D) (la : LA κ B D) (solveT : κ → D → D) (fresh : RBSt κ B D) (U : Vel κ B D)
    (T T' : Temp κ D) (level1 : Vel κ B D × Temp κ D) (n : ℕ) :
    (tickRB r la solveT)^[n + 1] (initRB r fresh (U, T) level1) = (tickRB r la solveT)^[n + 1] (initRB r fresh (U, T') level1) := by
  rw [Function.iterate_succ_apply, Function.iterate_succ_apply]
  rfl

/-- Without motion the restarted run repeats the temperature step it has already made. -/
theorem C65_step_repeated (r : RBCtx κ B D) (la : LA κ B D) (solveT : κ → D → D)
    (hB : ∀ T u k, r.prodB T u k = 0) (hD : ∀ T v k, r.prodD T v k = 0) (s0 fresh : RBSt κ B D) (n : ℕ) :
    let p := checkpointRB r la solveT s0 n
    (tickRB r la solveT (initRB r fresh p.1 p.2)).phi = p.1.2 := by
  have hdiv : ∀ U T k, maskT r.c.mask (divRB r U T) k = 0 := by intro U T k; simp [maskT_eq, divRB, hB, hD]
  intro p
  ext k
  · simp only [p, checkpointRB, tickRB, endOfTstepRB, integrateRB, solveLinearRB, computeRHSRB, hdiv]
    rfl
  · rfl
  · rfl

/-- `init_from_file` of the Rayleigh-Benard demo leaves the time alone and stores the checkpointed time as the step number. -/
theorem C65_clock (file now : Clock) : initClock file now = ⟨now.t, file.t⟩ := rfl

/-- So the clock of the restarted run is not the one which was checkpointed. -/
theorem C65_clock_false : ∃ file now : Clock, initClock file now ≠ file :=
  ⟨⟨1, 100⟩, ⟨0, 0⟩, fun h => by
    have := congrArg Clock.t h
    simp [initClock] at this⟩

/-- Heat conduction only: one decaying mode. -/
noncomputable def conductRB : RBCtx Unit ℂ ℂ where
  c := decayCtx
  kappa := 1
  e0 := 0
  e1 := 0
  btt0 := 0
  btt1 := 0
  prodB _ _ _ := 0
  prodD _ _ _ := 0
  bcp := 0
  bcq := 0
  ADDR := -LinearMap.id
  BDDR := LinearMap.id
  ADDT := -LinearMap.id
  BDDT := LinearMap.id

/-- C65 is false for KMM_RB: heat conduction by the factor `1/3` per step, checkpoint in the first step; the restarted run shows the
checkpointed temperature again after a step. -/
theorem C65_kmm_rb_false : SolvesT conductRB 1 (fun _ b => b / 3) ∧
    ∃ s0 fresh : RBSt Unit ℂ ℂ, s0.phi0 = s0.phi ∧ s0.phi1 = s0.phi ∧ s0.s.U0 = s0.s.U ∧
      ¬ SameRB conductRB decayLA (fun _ b => b / 3) (initRB conductRB fresh (checkpointRB conductRB decayLA (fun _ b => b / 3) s0 0).1
        (checkpointRB conductRB decayLA (fun _ b => b / 3) s0 0).2) ((tickRB conductRB decayLA (fun _ b => b / 3))^[1] s0) := by
  constructor
  · intro k b
    simp [conductRB, decayCtx, Grid.Ksq]
    ring
  refine ⟨⟨⟨⟨0, 0, 0⟩, 0, ⟨0, 0, 0⟩, ⟨0, 0, 0⟩, ⟨0, 0, 0⟩, ⟨0, 0, 0⟩⟩, ⟨fun _ => 9, 0, 0⟩, ⟨fun _ => 9, 0, 0⟩, ⟨fun _ => 9, 0, 0⟩, 0, 0⟩,
    ⟨⟨⟨0, 0, 0⟩, 0, ⟨0, 0, 0⟩, ⟨0, 0, 0⟩, ⟨0, 0, 0⟩, ⟨0, 0, 0⟩⟩, ⟨0, 0, 0⟩, ⟨0, 0, 0⟩, ⟨0, 0, 0⟩, 0, 0⟩, rfl, rfl, rfl, fun h => ?_⟩
  have h1 := congrArg (fun T : Temp Unit ℂ => T.d ()) (h 1).2
  norm_num [tickRB, integrateRB, endOfTstepRB, solveLinearRB, computeRHSRB, conductRB, decayCtx, checkpointRB, initRB, divRB, maskT,
    tcMatvec, Grid.Ksq] at h1

theorem g_zeroRB3 (r : RBCtx κ B D) (convT : Vel κ B D → Temp κ D → κ → D) (la : Fin 3 → LA κ B D) (solveT : Fin 3 → κ → D → D)
    (hX1 : r.c.G.X1 r.c.G.zero = 0) (hX2 : r.c.G.X2 r.c.G.zero = 0) (hh : ∀ rk, (la rk).helmholtzG r.c.G.zero 0 = 0)
    (s0 : RB3St κ B D) (h0 : s0.s.g r.c.G.zero = 0) (n : ℕ) :
    ((integrateRB3 r convT la solveT)^[n] s0).s.g r.c.G.zero = 0 := by
  have hst : ∀ (rk : Fin 3) (s : RB3St κ B D), s.s.g r.c.G.zero = 0 → (rkB rk = 0 ∨ s.s.hg r.c.G.zero = 0) →
      (substepRB r convT la solveT rk s).s.g r.c.G.zero = 0 ∧ (substepRB r convT la solveT rk s).s.hg r.c.G.zero = 0 := by
    intro rk s h1 h2
    constructor
    · rcases h2 with h2 | h2 <;>
        simp [substepRB, solveLinear3, computeRHS3, hgOf, hX1, hX2, helmholtzCoeff, h1, h2, hh]
    · simp [substepRB, solveLinear3, computeRHS3, hgOf, hX1, hX2]
  induction n with
  | zero => exact h0
  | succ n ih =>
    rw [Function.iterate_succ_apply']
    have a0 := hst 0 _ ih (Or.inl rfl)
    have a1 := hst 1 _ a0.1 (Or.inr a0.2)
    exact (hst 2 _ a1.1 (Or.inr a1.2)).1

/-- Velocity, `g` and temperature determine the future of a KMMRK3_RB run. -/
theorem integrateRB3_indep (r : RBCtx κ B D) (convT : Vel κ B D → Temp κ D → κ → D) (la : Fin 3 → LA κ B D)
    (solveT : Fin 3 → κ → D → D) (s t : RB3St κ B D) (hU : s.s.U = t.s.U) (hg : s.s.g = t.s.g) (hp : s.phi = t.phi) :
    integrateRB3 r convT la solveT s = integrateRB3 r convT la solveT t := by
  have h : substepRB r convT la solveT 0 s = substepRB r convT la solveT 0 t := by
    have hb : ((rkB 0 : ℝ) : ℂ) = 0 := by show (((0 : ℝ) : ℝ) : ℂ) = 0; norm_num
    simp [substepRB, solveLinear3, computeRHS3, hU, hg, hp, hb]
  rw [integrateRB3, h, ← integrateRB3]

/-- C65, the part which holds: restarting KMMRK3_RB from the stored velocity and temperature into any context continues the fields
exactly as the uninterrupted run. Missing: KMM_RB (`C65_kmm_rb_false`) and the clock (`C65_clock_false`). -/
theorem C65_rk3_restart_partial (r : RBCtx κ B D) (convT : Vel κ B D → Temp κ D → κ → D) (la : Fin 3 → LA κ B D)
    (solveT : Fin 3 → κ → D → D) (htdma : ∀ b, r.c.M.BDD ((la 2).tdmaD b) = b) (hz : ∀ k, r.c.G.Ksq k = 0 ↔ k = r.c.G.zero)
    (hX1 : r.c.G.X1 r.c.G.zero = 0) (hX2 : r.c.G.X2 r.c.G.zero = 0) (hh : ∀ rk, (la rk).helmholtzG r.c.G.zero 0 = 0)
    (s0 fresh : RB3St κ B D) (hg0 : s0.s.g r.c.G.zero = 0) (n m : ℕ) :
    let run := fun n => (integrateRB3 r convT la solveT)^[n] s0
    let stored := ((run (n + 1)).s.U, (run (n + 1)).phi)
    (integrateRB3 r convT la solveT)^[m + 1] (initRB3 r fresh stored) = run (n + 1 + (m + 1)) := by
  intro run stored
  have hrun : run (n + 1 + (m + 1)) = (integrateRB3 r convT la solveT)^[m + 1] (run (n + 1)) := by
    simp only [run]
    rw [Nat.add_comm (n + 1), Function.iterate_add_apply]
  rw [hrun, Function.iterate_succ_apply, Function.iterate_succ_apply]
  congr 1
  apply integrateRB3_indep
  · rfl
  · have hg := g_zeroRB3 r convT la solveT hX1 hX2 hh s0 hg0 (n + 1)
    have hr : run (n + 1) = integrateRB3 r convT la solveT (run n) := Function.iterate_succ_apply' _ _ _
    funext k
    show vorticity r.c.G (run (n + 1)).s.U k = (run (n + 1)).s.g k
    by_cases hk : k = r.c.G.zero
    · have hq : r.c.G.K1 k * r.c.G.K1 k + r.c.G.K2 k * r.c.G.K2 k = 0 := (hz k).2 hk
      have h1 : r.c.G.K1 k = 0 := by nlinarith [mul_self_nonneg (r.c.G.K1 k), mul_self_nonneg (r.c.G.K2 k)]
      have h2 : r.c.G.K2 k = 0 := by nlinarith [mul_self_nonneg (r.c.G.K1 k), mul_self_nonneg (r.c.G.K2 k)]
      have hg' : (run (n + 1)).s.g k = 0 := by rw [hk]; exact hg
      rw [hg']
      simp [vorticity, h1, h2]
    · rw [hr]
      exact (C33_kmmrk3 r.c (la 2) htdma hz 2 _ _ _).2.1 k hk
  · rfl

theorem g_zeroRB (r : RBCtx κ B D) (la : LA κ B D) (solveT : κ → D → D)
    (hX1 : r.c.G.X1 r.c.G.zero = 0) (hX2 : r.c.G.X2 r.c.G.zero = 0) (hh : la.helmholtzG r.c.G.zero 0 = 0)
    (s0 : RBSt κ B D) (h0 : s0.s.g r.c.G.zero = 0) (n : ℕ) : ((tickRB r la solveT)^[n] s0).s.g r.c.G.zero = 0 := by
  induction n with
  | zero => exact h0
  | succ n ih =>
    rw [Function.iterate_succ_apply']
    simp [tickRB, endOfTstepRB, integrateRB, solveLinearRB, solveLinear, computeRHSRB, computeRHS, hgOf, hX1, hX2, helmholtzCoeff, ih, hh]

/-- C65, what holds for KMM_RB: when the temperature was steady during the checkpointed step, the flow of the first step after the
restart is the one of the uninterrupted run at every wavenumber pair but the mean, with every form of the convection, and so is `g`.
Missing: a changing temperature (`C65_kmm_rb_false`), the mean flow (`C36_mean_false`). -/
theorem C65_kmm_rb_flow_partial (r : RBCtx κ B D) (la : LA κ B D) (solveT : κ → D → D) (htdma : ∀ b, r.c.M.BDD (la.tdmaD b) = b)
    (hz : ∀ k, r.c.G.Ksq k = 0 ↔ k = r.c.G.zero)
    (hX1 : r.c.G.X1 r.c.G.zero = 0) (hX2 : r.c.G.X2 r.c.G.zero = 0) (hh : la.helmholtzG r.c.G.zero 0 = 0)
    (s0 fresh : RBSt κ B D) (hU : s0.s.U0 = s0.s.U) (hg0 : s0.s.g = vorticity r.c.G s0.s.U) (n : ℕ)
    (hT : (checkpointRB r la solveT s0 n).1.2 = (checkpointRB r la solveT s0 n).2.2)
    (hf : fresh.phi1 = (checkpointRB r la solveT s0 n).2.2) :
    let a := (tickRB r la solveT (initRB r fresh (checkpointRB r la solveT s0 n).1 (checkpointRB r la solveT s0 n).2)).s
    let b := ((tickRB r la solveT)^[n + 2] s0).s
    a.g = b.g ∧ ∀ k, k ≠ r.c.G.zero → a.U.u k = b.U.u k ∧ a.U.v k = b.U.v k ∧ a.U.w k = b.U.w k := by
  have hzero : ∀ U : Vel κ B D, vorticity r.c.G U r.c.G.zero = 0 := by
    intro U
    have hq : r.c.G.K1 r.c.G.zero * r.c.G.K1 r.c.G.zero + r.c.G.K2 r.c.G.zero * r.c.G.K2 r.c.G.zero = 0 := (hz _).2 rfl
    have h1 : r.c.G.K1 r.c.G.zero = 0 := by nlinarith [mul_self_nonneg (r.c.G.K1 r.c.G.zero), mul_self_nonneg (r.c.G.K2 r.c.G.zero)]
    have h2 : r.c.G.K2 r.c.G.zero = 0 := by nlinarith [mul_self_nonneg (r.c.G.K1 r.c.G.zero), mul_self_nonneg (r.c.G.K2 r.c.G.zero)]
    simp [vorticity, h1, h2]
  have hgz := fun n => g_zeroRB r la solveT hX1 hX2 hh s0 (by rw [hg0]; exact hzero _) n
  have hvort : ∀ n, ((tickRB r la solveT)^[n] s0).s.g = vorticity r.c.G ((tickRB r la solveT)^[n] s0).s.U := by
    intro n
    cases n with
    | zero => exact hg0
    | succ n =>
      funext k
      by_cases hk : k = r.c.G.zero
      · rw [hk, hgz, hzero]
      · rw [Function.iterate_succ_apply']
        exact ((C33_kmm r.c la htdma hz _ _ _).2.1 k hk).symm
  have hU0 : ((tickRB r la solveT)^[n] s0).s.U0 = ((tickRB r la solveT)^[n] s0).s.U := by
    cases n with
    | zero => exact hU
    | succ n => rw [Function.iterate_succ_apply']; rfl
  have hb : (tickRB r la solveT)^[n + 2] s0 = tickRB r la solveT ((tickRB r la solveT)^[n + 1] s0) := Function.iterate_succ_apply' _ _ _
  have hb1 : (tickRB r la solveT)^[n + 1] s0 = tickRB r la solveT ((tickRB r la solveT)^[n] s0) := Function.iterate_succ_apply' _ _ _
  have e1 : (initRB r fresh (checkpointRB r la solveT s0 n).1 (checkpointRB r la solveT s0 n).2).s.U = ((tickRB r la solveT)^[n + 1] s0).s.U := by
    rw [hb1]; rfl
  have e2 : (initRB r fresh (checkpointRB r la solveT s0 n).1 (checkpointRB r la solveT s0 n).2).s.g = ((tickRB r la solveT)^[n + 1] s0).s.g := by
    rw [hvort (n + 1), ← e1]; rfl
  have e3 : (initRB r fresh (checkpointRB r la solveT s0 n).1 (checkpointRB r la solveT s0 n).2).s.H1 = ((tickRB r la solveT)^[n + 1] s0).s.H1 := by
    rw [hb1]
    have h1 : ((tickRB r la solveT) ((tickRB r la solveT)^[n] s0)).s.H1 =
      r.c.conv ((tickRB r la solveT)^[n] s0).s.U ((tickRB r la solveT)^[n] s0).s.g := rfl
    have h2 : (initRB r fresh (checkpointRB r la solveT s0 n).1 (checkpointRB r la solveT s0 n).2).s.H1 =
      r.c.conv ((tickRB r la solveT)^[n] s0).s.U0 (vorticity r.c.G ((tickRB r la solveT)^[n] s0).s.U0) := rfl
    rw [h1, h2, hU0, hvort]
  have e4 : (initRB r fresh (checkpointRB r la solveT s0 n).1 (checkpointRB r la solveT s0 n).2).phi0 = ((tickRB r la solveT)^[n + 1] s0).phi0 := by
    rw [hb1]; exact hT.symm
  have e5 : (initRB r fresh (checkpointRB r la solveT s0 n).1 (checkpointRB r la solveT s0 n).2).phi1 = ((tickRB r la solveT)^[n + 1] s0).phi1 := by
    rw [hb1]; exact hf
  intro a b
  simp only [a, b, hb]
  generalize initRB r fresh (checkpointRB r la solveT s0 n).1 (checkpointRB r la solveT s0 n).2 = x at *
  generalize (tickRB r la solveT)^[n + 1] s0 = y at *
  constructor
  · simp [tickRB, endOfTstepRB, integrateRB, solveLinearRB, solveLinear, computeRHSRB, computeRHS, e1, e2, e3]
  · intro k hk
    simp [tickRB, endOfTstepRB, integrateRB, solveLinearRB, solveLinear, computeRHSRB, computeRHS, e1, e2, e3, e4, e5, hk]

/-! ## Centring of the heat convection -/

/-- Extrapolation of the velocity to the middle of the step. -/
noncomputable def ab2U (U Uold : Vel κ B D) : Vel κ B D :=
  ⟨fun k => (3 / 2 : ℂ) • U.u k - (1 / 2 : ℂ) • Uold.u k, fun k => (3 / 2 : ℂ) • U.v k - (1 / 2 : ℂ) • Uold.v k,
   fun k => (3 / 2 : ℂ) • U.w k - (1 / 2 : ℂ) • Uold.w k⟩

omit [DecidableEq κ] in
/-- How far the convective term of step `n + 1` of KMM_RB is from the one centred in the middle of the step: exactly the heat carried by
half the change of velocity over the last step, a first order error. -/
theorem C66_error (r : RBCtx κ B D) (U Uold : Vel κ B D) (T : Temp κ D) (prodB : (κ → B) →ₗ[ℂ] κ → B) (prodD : (κ → D) →ₗ[ℂ] κ → D)
    (hB : r.prodB T = prodB) (hD : r.prodD T = prodD) (k : κ) :
    heatConv r (ab2U U Uold) T k - heatConv r U T k =
      (1 / 2 : ℂ) • heatConv r ⟨U.u - Uold.u, U.v - Uold.v, U.w - Uold.w⟩ T k := by
  have e1 : (ab2U U Uold).u = (3 / 2 : ℂ) • U.u - (1 / 2 : ℂ) • Uold.u := rfl
  have e2 : (ab2U U Uold).v = (3 / 2 : ℂ) • U.v - (1 / 2 : ℂ) • Uold.v := rfl
  have e3 : (ab2U U Uold).w = (3 / 2 : ℂ) • U.w - (1 / 2 : ℂ) • Uold.w := rfl
  simp only [heatConv, hB, hD, weakDiv, e1, e2, e3, map_sub, map_smul, map_add, Pi.sub_apply, Pi.smul_apply]
  module

/-- C66, the part which holds: the term is centred when the velocity did not change in the last step. Missing: changing velocity, see
`C66_centred_false`; `C66_error` gives the difference. -/
theorem C66_steady_partial (r : RBCtx κ B D) (la : LA κ B D) (solveT : κ → D → D) (s0 : RBSt κ B D) (n : ℕ)
    (h0 : s0.phi0 = s0.phi)
    (hsteady : ((tickRB r la solveT)^[n + 1] s0).s.U = ((tickRB r la solveT)^[n] s0).s.U) (k : κ) :
    let s := fun n => (tickRB r la solveT)^[n] s0
    maskT r.c.mask ((s (n + 2)).N) k =
      heatConv r (ab2U (s (n + 1)).s.U (s n).s.U) (ab2T (s (n + 1)).phi (s n).phi) k := by
  intro s
  have hs : ∀ n, s (n + 1) = tickRB r la solveT (s n) := fun n => Function.iterate_succ_apply' _ _ _
  have hU : ab2U (s (n + 1)).s.U (s n).s.U = (s (n + 1)).s.U := by
    show ab2U ((tickRB r la solveT)^[n + 1] s0).s.U ((tickRB r la solveT)^[n] s0).s.U = _
    rw [hsteady]
    ext k <;> simp only [ab2U, ← sub_smul] <;> norm_num
  have hp : (s n).phi0 = (s n).phi := by
    cases n with
    | zero => exact h0
    | succ n => rw [hs]; rfl
  have h1 : (s (n + 1)).s.U0 = (s (n + 1)).s.U := by rw [hs]; rfl
  have h2 : (s (n + 1)).phi0 = (s (n + 1)).phi := by rw [hs]; rfl
  have h3 : (s (n + 1)).phi1 = (s n).phi := by rw [hs]; exact hp
  rw [hU, show s (n + 2) = tickRB r la solveT (s (n + 1)) from hs (n + 1), ← divRB_eq]
  show maskT r.c.mask (divRB r (meanVel (s (n + 1)).s.U (s (n + 1)).s.U0) (phiAb (s (n + 1)).phi0 (s (n + 1)).phi1)) k = _
  rw [h1, meanVel_self, phiAb_eq, h2, h3]

/-- A decaying mean flow carrying one temperature mode. -/
noncomputable def carryRB : RBCtx Bool ℂ ℂ where
  c := ⟨1, 1, ⟨fun k => if k then 1 else 0, 0, fun k => if k then 1 else 0, 0, false⟩,
    ⟨0, LinearMap.id, LinearMap.id, LinearMap.id, -LinearMap.id, LinearMap.id, 0, 0, -LinearMap.id, LinearMap.id⟩, none,
    fun _ _ => ⟨0, 0, 0⟩, 0⟩
  kappa := 1
  e0 := 0
  e1 := 0
  btt0 := 0
  btt1 := 0
  prodB _ _ _ := 0
  prodD T v k := T.d k * v false
  bcp := 0
  bcq := 0
  ADDR := -LinearMap.id
  BDDR := LinearMap.id
  ADDT := -LinearMap.id
  BDDT := LinearMap.id

/-- C66 is false: the convective term of the second step is not the one centred in the middle of that step. -/
theorem C66_centred_false :
    ∃ s0 : RBSt Bool ℂ ℂ, s0.phi0 = s0.phi ∧ s0.phi1 = s0.phi ∧ s0.s.U0 = s0.s.U ∧ ∃ k,
      let s := fun n => (tickRB carryRB ⟨fun _ b => b / 3, fun _ b => b, fun b => b / 3, id⟩ (fun k b => if k then b / 4 else b / 3))^[n] s0
      maskT carryRB.c.mask ((s 2).N) k ≠ heatConv carryRB (ab2U (s 1).s.U (s 0).s.U) (ab2T (s 1).phi (s 0).phi) k := by
  refine ⟨⟨⟨⟨0, fun k => if k then 0 else 9, 0⟩, 0, ⟨0, 0, 0⟩, ⟨0, 0, 0⟩, ⟨0, 0, 0⟩, ⟨0, fun k => if k then 0 else 9, 0⟩⟩,
    ⟨fun k => if k then 1 else 0, 0, 0⟩, ⟨fun k => if k then 1 else 0, 0, 0⟩, ⟨fun k => if k then 1 else 0, 0, 0⟩, 0, 0⟩,
    rfl, rfl, rfl, true, fun h => ?_⟩
  norm_num [tickRB, integrateRB, endOfTstepRB, solveLinearRB, solveLinear, computeRHS, computeRHSRB, carryRB, divRB, maskT, heatConv,
    ab2U, ab2T, phiAb, meanVel, weakDiv, maskAt, tcMatvec, Grid.Ksq, assembleAB, maskVec] at h
  have h1 := congrArg Complex.re h
  norm_num at h1

/-! ## Cases meeting the hypotheses -/

/-- Four wavenumber pairs, plate temperatures one and zero. -/
noncomputable def demoRB : RBCtx (Bool × Bool) ℂ ℂ where
  c := { demoCtx with conv := fun U g => ⟨fun k => U.v k * U.w k, fun k => g k * U.v k, fun k => U.u k * g k⟩, Sk := 0 }
  kappa := 1
  e0 := 1
  e1 := 2
  btt0 := 3
  btt1 := 4
  prodB T u k := T.d k * u k
  prodD T v k := T.d k * v k
  bcp k := if k = (false, false) then 1 else 0
  bcq _ := 0
  ADDR := -LinearMap.id
  BDDR := (2 : ℂ) • LinearMap.id
  ADDT := -LinearMap.id
  BDDT := (2 : ℂ) • LinearMap.id

noncomputable def demoSolveT (k : Bool × Bool) (b : ℂ) : ℂ := b / (1 + (demoGrid.Ksq k + 2 / 1 / 1 / 1 : ℝ) * 2)

theorem demoSolveT_solves : SolvesT demoRB 1 demoSolveT := by
  intro k b
  have h : (1 + ((demoGrid.Ksq k : ℝ) + 2 / 1 / 1 / 1 : ℂ) * 2) ≠ 0 := by
    have : 0 ≤ demoGrid.Ksq k := add_nonneg (mul_self_nonneg _) (mul_self_nonneg _)
    have h2 : (1 + (demoGrid.Ksq k + 2 / 1 / 1 / 1 : ℝ) * 2 : ℝ) ≠ 0 := by positivity
    have h3 := Complex.ofReal_ne_zero.2 h2
    push_cast at h3
    exact h3
  simp only [demoRB, demoSolveT, demoCtx, demoMats, LinearMap.neg_apply, LinearMap.smul_apply, LinearMap.id_apply, smul_eq_mul]
  push_cast
  linear_combination div_mul_cancel₀ b h

example (n : ℕ) (s0 : RBSt (Bool × Bool) ℂ ℂ) (hU : s0.s.U0 = s0.s.U) (h0 : s0.phi0 = s0.phi) (h1 : s0.phi1 = s0.phi) :=
  C63_run_partial demoRB demoLA demoSolveT (by norm_num [demoRB, demoCtx]) (by norm_num [demoRB, demoCtx]) (by norm_num [demoRB]) rfl rfl
    demo_solves
    demoSolveT_solves s0 hU h0 h1 n

theorem demoRB_quiet : Quiet demoRB := by
  refine ⟨?_, rfl, fun k hk => ?_, fun _ _ => rfl, (demoGrid_zero _).2 rfl⟩
  · ext k <;> simp [demoRB]
  · exact if_neg hk

/-- The conduction state of `demoRB` is not the zero state. -/
example (n : ℕ) (s0 : RBSt (Bool × Bool) ℂ ℂ) (h : Conducting demoRB s0.s.U s0.s.g s0.phi) (h0 : s0.phi0 = s0.phi)
    (h1 : s0.phi1 = s0.phi) (hU : s0.s.U0 = s0.s.U) (hH : s0.s.H1 = ⟨0, 0, 0⟩) :
    (((tickRB demoRB demoLA demoSolveT)^[n] s0).phi).p (false, false) = 1 := by
  have h := C64_kmm_rb demoRB demoLA demoSolveT demoRB_quiet
    ⟨fun _ => by simp [demoLA], fun _ => by simp [demoLA], by simp [demoLA], by simp [demoLA], fun _ => by simp [demoSolveT]⟩
    (fun _ _ => by simp [demoRB]) (fun _ _ => by simp [demoRB]) s0 h h0 h1 hU hH n
  rw [h.2.2]
  simp [demoRB]

/-- `C65_rk3_restart_partial` applies to `demoRB` with a temperature convection which is not zero. -/
example (n m : ℕ) (s0 fresh : RB3St (Bool × Bool) ℂ ℂ) (hg0 : s0.s.g (false, false) = 0) :=
  C65_rk3_restart_partial demoRB (fun U T k => U.v k * T.d k) (fun _ => demoLA) (fun _ => demoSolveT) demo_solves.tdmaD demoGrid_zero
    (by simp [demoRB, demoCtx, demoGrid]) (by simp [demoRB, demoCtx, demoGrid]) (fun _ => by simp [demoLA]) s0 fresh hg0 n m

/-- `C65_kmm_rb_flow_partial` applies to the conduction state of `demoRB` with motionless fluid. -/
example (n : ℕ) (s0 : RBSt (Bool × Bool) ℂ ℂ) (h : Conducting demoRB s0.s.U s0.s.g s0.phi) (h0 : s0.phi0 = s0.phi)
    (h1 : s0.phi1 = s0.phi) (hU : s0.s.U0 = s0.s.U) (hH : s0.s.H1 = ⟨0, 0, 0⟩) (hg : s0.s.g = vorticity demoRB.c.G s0.s.U) :=
  have hc := C64_kmm_rb demoRB demoLA demoSolveT demoRB_quiet
    ⟨fun _ => by simp [demoLA], fun _ => by simp [demoLA], by simp [demoLA], by simp [demoLA], fun _ => by simp [demoSolveT]⟩
    (fun _ _ => by simp [demoRB]) (fun _ _ => by simp [demoRB]) s0 h h0 h1 hU hH
  have e : (checkpointRB demoRB demoLA demoSolveT s0 n).1.2 = (checkpointRB demoRB demoLA demoSolveT s0 n).2.2 := by
    have a1 := (hc (n + 1)).2.2
    rw [Function.iterate_succ_apply'] at a1
    have a2 : ((tickRB demoRB demoLA demoSolveT)^[n] s0).phi0 = ((tickRB demoRB demoLA demoSolveT)^[n] s0).phi := by
      cases n with
      | zero => exact h0
      | succ n => rw [Function.iterate_succ_apply']; rfl
    exact a1.trans ((hc n).2.2.symm.trans a2.symm)
  C65_kmm_rb_flow_partial demoRB demoLA demoSolveT demo_solves.tdmaD demoGrid_zero
    (by simp [demoRB, demoCtx, demoGrid]) (by simp [demoRB, demoCtx, demoGrid]) (by simp [demoLA]) s0
    { s0 with phi1 := (checkpointRB demoRB demoLA demoSolveT s0 n).2.2 } hU hg n e rfl

end SpectralDNS.Channel

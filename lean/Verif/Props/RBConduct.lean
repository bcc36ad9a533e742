import Verif.Props.RBRelax

/-!
# C80: heat conduction in a fluid at rest
-/

namespace SpectralDNS.Channel

open Polynomial Periodic Spec.Field Spec.Channel Laminar Filter Topology

section Generic

variable {κ B D : Type*} [DecidableEq κ] [AddCommGroup B] [Module ℂ B] [AddCommGroup D] [Module ℂ D]

/-- Nothing moves, the temperature depends on the distance from the plates only. -/
structure Layered (r : RBCtx κ B D) (U : Vel κ B D) (g : κ → D) (phi : Temp κ D) : Prop where
  U : U = ⟨0, 0, 0⟩
  g : g = 0
  p : phi.p = r.bcp
  q : phi.q = r.bcq
  d : ∀ k, k ≠ r.c.G.zero → phi.d k = 0

omit [DecidableEq κ] in
theorem buoyancy_layered (r : RBCtx κ B D) (hq : Quiet r) (phi : Temp κ D) (hp : phi.p = r.bcp) (hr : phi.q = r.bcq)
    (hd : ∀ k, k ≠ r.c.G.zero → phi.d k = 0) (k : κ) : buoyancy r phi k = 0 := by
  by_cases hk : k = r.c.G.zero
  · simp [buoyancy, hk, hq.ksq]
  · simp [buoyancy, hp, hr, hd k hk, hq.bcp k hk, hq.bcq k hk]

/-- One step of KMM_RB. -/
theorem layered_tick (r : RBCtx κ B D) (la : LA κ B D) (solveT : κ → D → D) (hq : Quiet r) (hl : ZeroLA la solveT)
    (hB : ∀ T k, r.prodB T 0 k = 0) (hD : ∀ T k, r.prodD T 0 k = 0) (s : RBSt κ B D)
    (h : Layered r s.s.U s.s.g s.phi) (h0 : s.phi0 = s.phi) (h1 : Layered r s.s.U s.s.g s.phi1) (hU0 : s.s.U0 = s.s.U)
    (hH : s.s.H1 = ⟨0, 0, 0⟩) :
    let s' := tickRB r la solveT s
    Layered r s'.s.U s'.s.g s'.phi ∧ s'.phi0 = s'.phi ∧ Layered r s'.s.U s'.s.g s'.phi1 ∧ s'.s.U0 = s'.s.U ∧ s'.s.H1 = ⟨0, 0, 0⟩ ∧
      s'.phi.d r.c.G.zero = solveT r.c.G.zero (tcMatvec r 1 (2 / r.kappa / r.c.dt) (s.phi.d r.c.G.zero)) := by
  intro s'
  obtain ⟨a1, a2, a3, a3', a3''⟩ := h
  have hH' : r.c.conv s.s.U s.s.g = ⟨0, 0, 0⟩ := by rw [a1, a2, hq.conv]
  have hH0 : maskVec r.c.mask (assembleAB (⟨0, 0, 0⟩ : Vec κ D) ⟨0, 0, 0⟩) = ⟨0, 0, 0⟩ := by
    ext k
    · rw [ab_c0]; simp [ab2Mid]
    · rw [ab_c1]; simp [ab2Mid]
    · rw [ab_c2]; simp [ab2Mid]
  have hm : meanVel s.s.U s.s.U0 = ⟨0, 0, 0⟩ := by rw [hU0, a1, meanVel_self]
  have hdiv : ∀ T k, divRB r ⟨0, 0, 0⟩ T k = 0 := by intro T k; simp [divRB, hB, hD]
  have hbu : ∀ k, buoyancy r (phiAb s.phi0 s.phi1) k = 0 := by
    intro k
    apply buoyancy_layered r hq
    · funext k
      simp only [phiAb, h0, a3, h1.p, ← sub_mul]; norm_num
    · funext k
      simp only [phiAb, h0, a3', h1.q, ← sub_mul]; norm_num
    · intro k hk
      simp only [phiAb, h0, a3'' k hk, h1.d k hk]; simp
  have e0 : ∀ k, (computeRHSRB r s).2.1 k = 0 := by
    intro k
    simp only [computeRHSRB, computeRHS, a1, a2, hq.conv, hH, hH0, hbu]
    simp [hvOf, biharmonicCoeff]
  have e1 : ∀ k, (computeRHSRB r s).2.2.1 k = 0 := by
    intro k
    simp only [computeRHSRB, computeRHS, a1, a2, hq.conv, hH, hH0]
    simp [hgOf, helmholtzCoeff]
  have e2 : ∀ k, (computeRHSRB r s).2.2.2 k = tcMatvec r 1 (2 / r.kappa / r.c.dt - r.c.G.Ksq k) (s.phi.d k) := by
    intro k
    simp only [computeRHSRB, h0, hm, maskT_eq, hdiv]
    simp
  have hU : s'.s.U = ⟨0, 0, 0⟩ := by
    ext k <;> by_cases hk : k = r.c.G.zero
    · simp [s', tickRB, endOfTstepRB, integrateRB, solveLinearRB, solveLinear, hk]
    · simp [s', tickRB, endOfTstepRB, integrateRB, solveLinearRB, solveLinear, Function.update_of_ne hk, e0, hl.u]
    · subst hk
      have : (computeRHSRB r s).1.s.H0 = ⟨0, 0, 0⟩ := by simp only [computeRHSRB, computeRHS, hH', hH, hH0]
      have hu0 : (computeRHSRB r s).1.s.U0 = ⟨0, 0, 0⟩ := hU0.trans a1
      simp [s', tickRB, endOfTstepRB, integrateRB, solveLinearRB, solveLinear, this, hu0, hq.source, hl.u0]
    · simp [s', tickRB, endOfTstepRB, integrateRB, solveLinearRB, solveLinear, Function.update_of_ne hk, e0, e1, hl.u, hl.g, hl.d,
        computeVW]
    · subst hk
      have : (computeRHSRB r s).1.s.H0 = ⟨0, 0, 0⟩ := by simp only [computeRHSRB, computeRHS, hH', hH, hH0]
      have hu0 : (computeRHSRB r s).1.s.U0 = ⟨0, 0, 0⟩ := hU0.trans a1
      simp [s', tickRB, endOfTstepRB, integrateRB, solveLinearRB, solveLinear, this, hu0, hl.u0]
    · simp [s', tickRB, endOfTstepRB, integrateRB, solveLinearRB, solveLinear, Function.update_of_ne hk, e0, e1, hl.u, hl.g, hl.d,
        computeVW]
  have hg : s'.s.g = 0 := by
    funext k
    simp [s', tickRB, endOfTstepRB, integrateRB, solveLinearRB, solveLinear, e1, hl.g]
  have hd : ∀ k, s'.phi.d k = solveT k (tcMatvec r 1 (2 / r.kappa / r.c.dt - r.c.G.Ksq k) (s.phi.d k)) := fun k => by
    simp only [s', tickRB, endOfTstepRB, integrateRB, solveLinearRB, e2]
  have hp1 : s'.phi1 = s.phi := h0
  refine ⟨⟨hU, hg, rfl, rfl, fun k hk => ?_⟩, rfl, ⟨hU, hg, ?_, ?_, ?_⟩, rfl, hH', ?_⟩
  · rw [hd, a3'' k hk]; simp [tcMatvec, hl.t]
  · rw [hp1, a3]
  · rw [hp1, a3']
  · rw [hp1]; exact a3''
  · rw [hd, hq.ksq, sub_zero]

/-- One substep of KMMRK3_RB. -/
theorem layered_substep (r : RBCtx κ B D) (convT : Vel κ B D → Temp κ D → κ → D) (la : Fin 3 → LA κ B D)
    (solveT : Fin 3 → κ → D → D) (hq : Quiet r) (hl : ∀ rk, ZeroLA (la rk) (solveT rk)) (hT : ∀ T, convT ⟨0, 0, 0⟩ T = 0)
    (rk : Fin 3) (s : RB3St κ B D) (h : Layered r s.s.U s.s.g s.phi)
    (hb : rkB rk = 0 ∨ (s.s.hv = 0 ∧ s.s.hg = 0 ∧ s.s.hm0 = 0 ∧ s.s.hm1 = 0 ∧ s.N0 = 0)) :
    let s' := substepRB r convT la solveT rk s
    Layered r s'.s.U s'.s.g s'.phi ∧ (s'.s.hv = 0 ∧ s'.s.hg = 0 ∧ s'.s.hm0 = 0 ∧ s'.s.hm1 = 0 ∧ s'.N0 = 0) ∧
      s'.phi.d r.c.G.zero = solveT rk r.c.G.zero (tcMatvec r 1 (2 / r.kappa / r.c.dt / (rkA rk + rkB rk)) (s.phi.d r.c.G.zero)) := by
  intro s'
  obtain ⟨a1, a2, a3, a3', a3''⟩ := h
  have hm0 : maskVec r.c.mask (⟨0, 0, 0⟩ : Vec κ D) = ⟨0, 0, 0⟩ := by
    ext k
    · rw [maskVec_c0]; simp
    · rw [maskVec_c1]; simp
    · rw [maskVec_c2]; simp
  have hbu : ∀ k, buoyancy r s.phi k = 0 := buoyancy_layered r hq _ a3 a3' a3''
  have hH : maskVec r.c.mask (r.c.conv s.s.U s.s.g) = ⟨0, 0, 0⟩ := by rw [a1, a2, hq.conv, hm0]
  have bv : ∀ k, (rkB rk : ℂ) • s.s.hv k = 0 := by intro k; rcases hb with hb | hb <;> simp [hb]
  have bg : ∀ k, (rkB rk : ℂ) • s.s.hg k = 0 := by intro k; rcases hb with hb | hb <;> simp [hb]
  have bm0 : (rkB rk : ℂ) • s.s.hm0 = 0 := by rcases hb with hb | hb <;> simp [hb]
  have bm1 : (rkB rk : ℂ) • s.s.hm1 = 0 := by rcases hb with hb | hb <;> simp [hb]
  have bN : ∀ k, (rkB rk : ℂ) • s.N0 k = 0 := by intro k; rcases hb with hb | hb <;> simp [hb]
  have hN : maskT r.c.mask (convT s.s.U s.phi) = 0 := by
    funext k
    rw [maskT_eq, a1, hT]
    simp
  have e0 : ∀ k, (computeRHS3 r.c rk s.s).2.1 k = 0 := by
    intro k
    simp only [computeRHS3, a1, a2, hq.conv, hm0, bv]
    simp [hvOf, biharmonicCoeff]
  have e1 : ∀ k, (computeRHS3 r.c rk s.s).2.2 k = 0 := by
    intro k
    simp only [computeRHS3, a1, a2, hq.conv, hm0, bg]
    simp [hgOf, helmholtzCoeff]
  have e3 : (computeRHS3 r.c rk s.s).1.H = ⟨0, 0, 0⟩ := hH
  have e4 : (computeRHS3 r.c rk s.s).1.U = ⟨0, 0, 0⟩ := a1
  have e5 : (computeRHS3 r.c rk s.s).1.hm0 = s.s.hm0 := rfl
  have e6 : (computeRHS3 r.c rk s.s).1.hm1 = s.s.hm1 := rfl
  have hd : ∀ k, s'.phi.d k = solveT rk k (tcMatvec r 1 (2 / r.kappa / r.c.dt / (rkA rk + rkB rk) - r.c.G.Ksq k) (s.phi.d k)) := fun k => by
    have e8 : maskT r.c.mask (convT s.s.U s.phi) k = 0 := by rw [hN]; rfl
    simp only [s', substepRB, e8, bN]
    simp
  refine ⟨⟨?_, ?_, rfl, rfl, fun k hk => ?_⟩, ⟨?_, ?_, ?_, ?_, hN⟩, ?_⟩
  · ext k <;> by_cases hk : k = r.c.G.zero
    · simp [s', substepRB, solveLinear3, hk]
    · simp [s', substepRB, solveLinear3, Function.update_of_ne hk, e0, hbu, (hl rk).u]
    · subst hk
      simp [s', substepRB, solveLinear3, e3, e4, e5, bm0, hq.source, (hl rk).u0]
    · simp [s', substepRB, solveLinear3, Function.update_of_ne hk, e0, e1, hbu, (hl rk).u, (hl rk).g, (hl rk).d, computeVW]
    · subst hk
      simp [s', substepRB, solveLinear3, e3, e4, e6, bm1, (hl rk).u0]
    · simp [s', substepRB, solveLinear3, Function.update_of_ne hk, e0, e1, hbu, (hl rk).u, (hl rk).g, (hl rk).d, computeVW]
  · funext k
    simp [s', substepRB, solveLinear3, e1, (hl rk).g]
  · rw [hd, a3'' k hk]; simp [tcMatvec, (hl rk).t]
  · funext k
    show hvOf r.c.G r.c.M (maskVec r.c.mask (r.c.conv s.s.U s.s.g)) k = 0
    simp [hH, hvOf]
  · funext k
    show hgOf r.c.G r.c.M (maskVec r.c.mask (r.c.conv s.s.U s.s.g)) k = 0
    simp [hH, hgOf]
  · simp [s', substepRB, solveLinear3, e3, hq.source]
  · simp [s', substepRB, solveLinear3, e3]
  · rw [hd, hq.ksq, sub_zero]

end Generic

section Rest

variable {κ B D C Q P : Type*} [AddCommGroup B] [Module ℂ B] [AddCommGroup D] [Module ℂ D] [AddCommGroup C] [Module ℂ C] {W : Wall B D C Q} {T : Space κ P} {z : κ}

/-- Every form of the convection is zero in a fluid at rest. -/
theorem convection_rest (hT : Flat T z) (G : Channel.Grid κ) (h1 : G.K1 z = 0) (h2 : G.K2 z = 0) (kind : ConvKind) :
    convection kind W T G (⟨0, 0, 0⟩ : Vel κ B D) 0 = ⟨0, 0, 0⟩ := by
  have hU : Parallel z (⟨0, 0, 0⟩ : Vel κ B D) := ⟨rfl, fun _ _ => rfl, fun _ _ => rfl⟩
  have hs : ∀ x, scaleVec x (⟨0, 0, 0⟩ : Vec κ D) = ⟨0, 0, 0⟩ := fun x => by ext k <;> simp [scaleVec]
  cases kind with
  | standard => rw [convection, standard_parallel hT G h1 h2 hU, hs]
  | divergence => rw [convection, divergence_parallel hT G h1 h2 hU, hs]
  | skew => rw [convection, standard_parallel hT G h1 h2 hU, divergence_parallel hT G h1 h2 hU, hs]
  | vortex => simp [convection, crossHat, velocity, bwdB_zero hT, bwdD_zero hT, cross1_3d, fwdD_zero hT]

theorem standardRB_rest (q : Quad) (n : ℕ) {W : Wall (Fin n → ℂ) (Fin (n + 2) → ℂ) (Fin (n + 4) → ℂ) Q} (hT : Flat T z) (G : Channel.Grid κ)
    (phi : Temp κ (Fin (n + 2) → ℂ)) : standardRB q n W T G ⟨0, 0, 0⟩ phi = 0 := by
  funext k
  simp [standardRB, velocity, bwdB_zero hT, bwdD_zero hT, fwdD_zero hT]

variable [DecidableEq κ]

/-- The mean temperature profile makes Crank-Nicolson steps of the heat equation. -/
theorem conduct_cn (n : ℕ) (r : RBCtx κ (Fin n → ℂ) (Fin (n + 2) → ℂ)) (hA : r.ADDR = (chebMats .GC n).ADD) (hB : r.BDDR = (chebMats .GC n).BDD)
    (hAT : r.ADDT = (chebMats .GC n).ADD) (hBT : r.BDDT = (chebMats .GC n).BDD) (hk : 0 < r.kappa) (hdt : 0 < r.c.dt) (ab : ℝ) (hab : 0 < ab)
    (solveT : κ → (Fin (n + 2) → ℂ) → Fin (n + 2) → ℂ) (hT : SolvesT r ab solveT) (hz : r.c.G.Ksq r.c.G.zero = 0) (x x' : Fin (n + 2) → ℂ)
    (h : x' = solveT r.c.G.zero (tcMatvec r 1 (2 / r.kappa / r.c.dt / ab) x)) :
    CrankNicolson (chebMats .GC n).BDD0 (chebMats .GC n).ADD0 r.kappa (ab * r.c.dt) 0 x x' := by
  have h1 := hT r.c.G.zero (tcMatvec r 1 (2 / r.kappa / r.c.dt / ab) x)
  rw [← h, hz, hA, hB, tcMatvec, hAT, hBT] at h1
  show (chebMats .GC n).BDD x' - ((r.kappa * (ab * r.c.dt) / 2 : ℝ) : ℂ) • (chebMats .GC n).ADD x' =
    (chebMats .GC n).BDD x + ((r.kappa * (ab * r.c.dt) / 2 : ℝ) : ℂ) • (chebMats .GC n).ADD x + _
  generalize (chebMats .GC n).BDD x' = b' at *
  generalize (chebMats .GC n).ADD x' = a' at *
  generalize (chebMats .GC n).BDD x = b at *
  generalize (chebMats .GC n).ADD x = a at *
  have e1 : (r.kappa : ℂ) ≠ 0 := by exact_mod_cast hk.ne'
  have e2 : (r.c.dt : ℂ) ≠ 0 := by exact_mod_cast hdt.ne'
  have e3 : (ab : ℂ) ≠ 0 := by exact_mod_cast hab.ne'
  funext i
  have h2 := congrFun h1 i
  simp only [Pi.add_apply, Pi.sub_apply, Pi.neg_apply, Pi.smul_apply, smul_eq_mul, Pi.zero_apply] at h2 ⊢
  push_cast at h2 ⊢
  field_simp at h2 ⊢
  linear_combination h2

theorem conduct_step3 (n : ℕ) (r : RBCtx κ (Fin n → ℂ) (Fin (n + 2) → ℂ)) (hA : r.ADDR = (chebMats .GC n).ADD) (hB : r.BDDR = (chebMats .GC n).BDD)
    (hAT : r.ADDT = (chebMats .GC n).ADD) (hBT : r.BDDT = (chebMats .GC n).BDD) (hk : 0 < r.kappa) (hdt : 0 < r.c.dt)
    (convT) (la : Fin 3 → LA κ (Fin n → ℂ) (Fin (n + 2) → ℂ)) (hla : ∀ rk, (la rk).Solves3 r.c.nu r.c.dt (rkA rk + rkB rk) r.c.G r.c.M)
    (solveT : Fin 3 → κ → (Fin (n + 2) → ℂ) → Fin (n + 2) → ℂ) (hT : ∀ rk, SolvesT r (rkA rk + rkB rk) (solveT rk)) (hq : Quiet r)
    (hcT : ∀ T, convT ⟨0, 0, 0⟩ T = 0) (t : RB3St κ (Fin n → ℂ) (Fin (n + 2) → ℂ)) (ht : Layered r t.s.U t.s.g t.phi) :
    let t' := integrateRB3 r convT la solveT t
    Layered r t'.s.U t'.s.g t'.phi ∧
      CrankNicolson3 (chebMats .GC n).BDD0 (chebMats .GC n).ADD0 r.kappa r.c.dt 0 (t.phi.d r.c.G.zero) (t'.phi.d r.c.G.zero) := by
  obtain ⟨f0, f1, f2, -⟩ := C35_fractions
  have hpos : ∀ rk, 0 < rkA rk + rkB rk := fun rk => by fin_cases rk <;> simp [rkA, rkB] <;> norm_num
  have hl : ∀ rk, ZeroLA (la rk) (solveT rk) := fun rk => by
    obtain ⟨z1, z2, z3, z4⟩ := solves3_zero (hla rk)
    exact ⟨z1, z2, z3, z4, solveT_zero n r hA hB hk hdt _ (hpos rk) _ (hT rk)⟩
  have hst := layered_substep r convT la solveT hq hl hcT
  have hcn := fun rk => conduct_cn n r hA hB hAT hBT hk hdt _ (hpos rk) (solveT rk) (hT rk) hq.ksq
  intro t'
  have ht' : t' = substepRB r convT la solveT 2 (substepRB r convT la solveT 1 (substepRB r convT la solveT 0 t)) := rfl
  clear_value t'
  obtain ⟨s1, hs1⟩ : ∃ s1, s1 = substepRB r convT la solveT 0 t := ⟨_, rfl⟩
  obtain ⟨s2, hs2⟩ : ∃ s2, s2 = substepRB r convT la solveT 1 s1 := ⟨_, rfl⟩
  rw [← hs1, ← hs2] at ht'
  have hb0 : rkB 0 = 0 := rfl
  have a0 := hst 0 t ht (Or.inl hb0)
  rw [← hs1] at a0
  have a1 := hst 1 s1 a0.1 (Or.inr a0.2.1)
  rw [← hs2] at a1
  have a2 := hst 2 s2 a1.1 (Or.inr a1.2.1)
  rw [← ht'] at a2
  have c0 := hcn 0 _ _ a0.2.2
  have c1 := hcn 1 _ _ a1.2.2
  have c2 := hcn 2 _ _ a2.2.2
  rw [f0] at c0
  rw [f1] at c1
  rw [f2] at c2
  exact ⟨a2.1, _, _, c0, c1, c2⟩

theorem conduct_step (n : ℕ) (r : RBCtx κ (Fin n → ℂ) (Fin (n + 2) → ℂ)) (hA : r.ADDR = (chebMats .GC n).ADD) (hB : r.BDDR = (chebMats .GC n).BDD)
    (hAT : r.ADDT = (chebMats .GC n).ADD) (hBT : r.BDDT = (chebMats .GC n).BDD) (hk : 0 < r.kappa) (hdt : 0 < r.c.dt)
    (la : LA κ (Fin n → ℂ) (Fin (n + 2) → ℂ)) (hla : la.Solves r.c.nu r.c.dt r.c.G r.c.M)
    (solveT : κ → (Fin (n + 2) → ℂ) → Fin (n + 2) → ℂ) (hT : SolvesT r 1 solveT) (hq : Quiet r)
    (hpB : ∀ T, r.prodB T 0 = 0) (hpD : ∀ T, r.prodD T 0 = 0) (s0 : RBSt κ (Fin n → ℂ) (Fin (n + 2) → ℂ))
    (hU0 : s0.s.U0 = s0.s.U) (hH : s0.s.H1 = ⟨0, 0, 0⟩) (hp0 : s0.phi0 = s0.phi) (hp1 : s0.phi1 = s0.phi) (hL0 : Layered r s0.s.U s0.s.g s0.phi) (m : ℕ) :
    let s := fun m => (tickRB r la solveT)^[m] s0
    Layered r (s m).s.U (s m).s.g (s m).phi ∧
      CrankNicolson (chebMats .GC n).BDD0 (chebMats .GC n).ADD0 r.kappa r.c.dt 0 ((s m).phi.d r.c.G.zero) ((s (m + 1)).phi.d r.c.G.zero) := by
  intro s
  have hl : ZeroLA la solveT := by
    obtain ⟨z1, z2, z3, z4⟩ := solves_zero hla
    exact ⟨z1, z2, z3, z4, solveT_zero n r hA hB hk hdt _ one_pos _ hT⟩
  have hst := layered_tick r la solveT hq hl (fun t k => congrFun (hpB t) k) (fun t k => congrFun (hpD t) k)
  have hcn := conduct_cn n r hA hB hAT hBT hk hdt 1 one_pos solveT hT hq.ksq
  have hs : ∀ m, s (m + 1) = tickRB r la solveT (s m) := fun m => Function.iterate_succ_apply' _ _ _
  have hinv : ∀ m, Layered r (s m).s.U (s m).s.g (s m).phi ∧ (s m).phi0 = (s m).phi ∧ Layered r (s m).s.U (s m).s.g (s m).phi1 ∧ (s m).s.U0 = (s m).s.U ∧
      (s m).s.H1 = ⟨0, 0, 0⟩ := fun m => by
    induction m with
    | zero =>
      refine ⟨hL0, hp0, ?_, hU0, hH⟩
      show Layered r s0.s.U s0.s.g s0.phi1
      rw [hp1]; exact hL0
    | succ m ih =>
      rw [hs]
      obtain ⟨a, b, c, d, e, -⟩ := hst _ ih.1 ih.2.1 ih.2.2.1 ih.2.2.2.1 ih.2.2.2.2
      exact ⟨a, b, c, d, e⟩
  refine ⟨(hinv m).1, ?_⟩
  obtain ⟨a, b, c', d, e⟩ := hinv m
  obtain ⟨-, -, -, -, -, h⟩ := hst _ a b c' d e
  have h1 := hcn ((s m).phi.d r.c.G.zero) ((tickRB r la solveT (s m)).phi.d r.c.G.zero) (by rw [h, div_one])
  rw [one_mul] at h1
  rw [hs]
  exact h1

end Rest

/-! ## Runs -/

/-- The conduction profile: linear, with temperature `bc.1` at the wall `x = 1` and `bc.2` at `x = -1`. -/
noncomputable def conduction (bc : ℝ × ℝ) : ℂ[X] := Polynomial.C (((bc.1 + bc.2) / 2 : ℝ) : ℂ) + Polynomial.C (((bc.1 - bc.2) / 2 : ℝ) : ℂ) * X

theorem tempPoly_conduction {n : ℕ} (bc : ℝ × ℝ) (d : Fin (n + 2) → ℂ) : tempPoly d bc.1 bc.2 - conduction bc = expandC phi d := by
  have h1 : (((bc.1 + bc.2) / 2 : ℝ) : ℂ) = 1 / 2 * (bc.1 + bc.2) := by push_cast; ring
  have h2 : (((bc.1 - bc.2) / 2 : ℝ) : ℂ) = 1 / 2 * (bc.1 - bc.2) := by push_cast; ring
  rw [tempPoly, conduction, h1, h2]
  ring

section Runs

variable {bc : ℝ × ℝ} {N M : Fin 2 → ℕ} {L : Fin 2 → ℝ} {Q : Type*} (n : ℕ) (hN : ∀ i, 0 < N i) (hL : ∀ i, L i ≠ 0) (hNM : ∀ i, N i ≤ M i)
  (c : Ctx (RModes N) (Fin n → ℂ) (Fin (n + 2) → ℂ)) (hG : c.G = waveGrid N L hN)
  (W : Wall (Fin n → ℂ) (Fin (n + 2) → ℂ) (Fin (n + 4) → ℂ) Q) (kind : ConvKind) (hconv : c.conv = convection kind W (rspace N M) c.G) (hS : c.Sk = 0)
  (hdt : 0 < c.dt) (kappa : ℝ) (hkappa : 0 < kappa)
  (prodB : Temp (RModes N) (Fin (n + 2) → ℂ) → (RModes N → Fin n → ℂ) → RModes N → Fin n → ℂ)
  (prodD : Temp (RModes N) (Fin (n + 2) → ℂ) → (RModes N → Fin (n + 2) → ℂ) → RModes N → Fin (n + 2) → ℂ)
include hL hNM hG hconv hS

omit hS hconv in
theorem quiet_cheb (hS : c.Sk = 0) (hconv : c.conv = convection kind W (rspace N M) c.G) (q qT : Quad) :
    Quiet (chebRB bc q qT n c kappa prodB prodD) where
  conv := by
    obtain ⟨h1, h2⟩ := waves_zero hN hL
    show c.conv _ _ = _
    rw [hconv, hG]
    exact convection_rest (waveGrid_flat hN hNM) _ h1 h2 kind
  source := hS
  bcp k hk := by simp [chebRB, show k ≠ c.G.zero from hk]
  bcq k hk := by simp [chebRB, show k ≠ c.G.zero from hk]
  ksq := by
    show c.G.Ksq c.G.zero = 0
    rw [hG]
    exact (waveGrid_zero N L hN hL _).2 rfl

omit hNM hG hconv hS in
/-- The temperature as a function of a layered state. -/
theorem fieldT_layered (T : Temp (RModes N) (Fin (n + 2) → ℂ)) (hT : HasBC bc (waveGrid N L hN).zero T) (hd : ∀ k, k ≠ (waveGrid N L hN).zero → T.d k = 0)
    (x y z : ℝ) : fieldT L T x y z = ((tempPoly (T.d (waveGrid N L hN).zero) bc.1 bc.2).eval (x : ℂ)).re := by
  rw [fieldT, field_mean hN hL, hT.1, hT.2.2.1]
  intro k hk
  rw [hd k hk, hT.2.1 k hk, hT.2.2.2 k hk, tempPoly]
  simp

omit hNM hconv hS in
/-- From the energies to the values. -/
theorem relax {rho : ℝ} (r0 : 0 ≤ rho) (r1 : rho < 1) (t : ℕ → Temp (RModes N) (Fin (n + 2) → ℂ)) (hb : ∀ m, HasBC bc c.G.zero (t m))
    (hd : ∀ m k, k ≠ c.G.zero → (t m).d k = 0)
    (h : ∀ m, Galerkin.energy .GC (n + 4) (expandC phi ((t (m + 1)).d c.G.zero)) ≤ rho * Galerkin.energy .GC (n + 4) (expandC phi ((t m).d c.G.zero))) :
    let T := fun m => tempPoly ((t m).d c.G.zero) ((t m).p c.G.zero) ((t m).q c.G.zero)
    (∀ m, Galerkin.energy .GC (n + 4) (T m - conduction bc) ≤ rho ^ m * Galerkin.energy .GC (n + 4) (T 0 - conduction bc)) ∧
      ∀ x y z : ℝ, Tendsto (fun m => fieldT L (t m) x y z) atTop (𝓝 ((bc.1 + bc.2) / 2 + (bc.1 - bc.2) / 2 * x)) := by
  intro T
  have hT : ∀ m, T m - conduction bc = expandC phi ((t m).d c.G.zero) := fun m => by
    show tempPoly _ _ _ - _ = _
    rw [(hb m).1, (hb m).2.2.1, tempPoly_conduction]
  have hgeo := Galerkin.geometric (e := fun m => Galerkin.energy .GC (n + 4) (expandC phi ((t m).d c.G.zero))) r0 h
  refine ⟨fun m => ?_, fun x y z => ?_⟩
  · rw [hT, hT]; exact hgeo m
  · have h1 := Galerkin.energy_controls .GC n x (fun m => (t m).d c.G.zero)
      (Galerkin.tendsto_geometric r0 r1 (fun m => Galerkin.energy_nonneg .GC _ (by omega) _) hgeo)
    have h2 := (Complex.continuous_re.tendsto _).comp (h1.add_const ((conduction bc).eval (x : ℂ)))
    have e1 : ((0 : ℂ) + (conduction bc).eval (x : ℂ)).re = (bc.1 + bc.2) / 2 + (bc.1 - bc.2) / 2 * x := by
      rw [conduction, zero_add]
      simp only [eval_mul, eval_C, eval_add, eval_X]
      rw [← Complex.ofReal_mul, ← Complex.ofReal_add, Complex.ofReal_re]
    rw [e1] at h2
    refine h2.congr fun m => ?_
    have hb' := hb m
    have hd' := hd m
    rw [hG] at hb' hd'
    rw [fieldT_layered n hN hL _ hb' hd', ← hG]
    show ((expandC phi _).eval _ + (conduction bc).eval _).re = _
    rw [← tempPoly_conduction, eval_sub, sub_add_cancel]

omit hL hNM hG hconv hS in
theorem layered_start {q qT : Quad} (U : Vel (RModes N) (Fin n → ℂ) (Fin (n + 2) → ℂ)) (g : RModes N → Fin (n + 2) → ℂ) (T : Temp (RModes N) (Fin (n + 2) → ℂ))
    (hU : U = ⟨0, 0, 0⟩) (hg : g = 0) (hb : HasBC bc c.G.zero T) (hd : ∀ k, k ≠ c.G.zero → T.d k = 0) :
    Layered (chebRB bc q qT n c kappa prodB prodD) U g T := by
  refine ⟨hU, hg, ?_, ?_, hd⟩
  · funext k
    by_cases hk : k = c.G.zero
    · rw [hk, hb.1]; simp [chebRB]
    · rw [hb.2.1 k hk]; simp [chebRB, hk]
  · funext k
    by_cases hk : k = c.G.zero
    · rw [hk, hb.2.2.1]; simp [chebRB]
    · rw [hb.2.2.2 k hk]; simp [chebRB, hk]

include hdt hkappa

/-- C80: from any temperature that depends on the height only, in a fluid at rest, KMMRK3_RB with the default quadrature keeps the fluid at rest and
approaches the conduction profile geometrically and at every point, for every time step. -/
theorem C80_kmmrk3_rb (la : Fin 3 → LA (RModes N) (Fin n → ℂ) (Fin (n + 2) → ℂ)) (hla : ∀ rk, (la rk).Solves3 c.nu c.dt (rkA rk + rkB rk) c.G c.M)
    (solveT : Fin 3 → RModes N → (Fin (n + 2) → ℂ) → Fin (n + 2) → ℂ)
    (hT : ∀ rk, SolvesT (chebRB bc .GC .GC n c kappa prodB prodD) (rkA rk + rkB rk) (solveT rk)) :
    ∃ rho : ℝ, 0 ≤ rho ∧ rho < 1 ∧ ∀ s0 : RB3St (RModes N) (Fin n → ℂ) (Fin (n + 2) → ℂ), s0.s.U = ⟨0, 0, 0⟩ → s0.s.g = 0 → HasBC bc c.G.zero s0.phi →
      (∀ k, k ≠ c.G.zero → s0.phi.d k = 0) →
      let s := fun m => (integrateRB3 (chebRB bc .GC .GC n c kappa prodB prodD) (standardRB .GC n W (rspace N M) c.G) la solveT)^[m] s0
      let T := fun m => tempPoly ((s m).phi.d c.G.zero) ((s m).phi.p c.G.zero) ((s m).phi.q c.G.zero)
      (∀ m, (s m).s.U = ⟨0, 0, 0⟩) ∧
      (∀ m, Galerkin.energy .GC (n + 4) (T m - conduction bc) ≤ rho ^ m * Galerkin.energy .GC (n + 4) (T 0 - conduction bc)) ∧
      ∀ x y z : ℝ, Tendsto (fun m => fieldT L (s m).phi x y z) atTop (𝓝 ((bc.1 + bc.2) / 2 + (bc.1 - bc.2) / 2 * x)) := by
  obtain ⟨rho, r0, r1, hr⟩ := Galerkin.energy_contract3 .GC n kappa c.dt hkappa hdt
  refine ⟨rho, r0, r1, fun s0 hU hg hb hd => ?_⟩
  intro s T
  have hq := quiet_cheb (bc := bc) n hN hL hNM c hG W kind kappa prodB prodD hS hconv .GC .GC
  have hflat : Flat (rspace N M) c.G.zero := by rw [hG]; exact waveGrid_flat hN hNM
  have hs : ∀ m, s (m + 1) = integrateRB3 (chebRB bc .GC .GC n c kappa prodB prodD) (standardRB .GC n W (rspace N M) c.G) la solveT (s m) :=
    fun m => Function.iterate_succ_apply' _ _ _
  have step := conduct_step3 n (chebRB bc .GC .GC n c kappa prodB prodD) rfl rfl rfl rfl hkappa hdt (standardRB .GC n W (rspace N M) c.G) la hla solveT hT hq
    (standardRB_rest .GC n hflat c.G)
  have hL0 : Layered (chebRB bc .GC .GC n c kappa prodB prodD) s0.s.U s0.s.g s0.phi := layered_start n c kappa prodB prodD s0.s.U s0.s.g s0.phi hU hg hb hd
  have hinv : ∀ m, Layered (chebRB bc .GC .GC n c kappa prodB prodD) (s m).s.U (s m).s.g (s m).phi := fun m => by
    induction m with
    | zero => exact hL0
    | succ m ih => rw [hs]; exact (step _ ih).1
  have hbc : ∀ m, HasBC bc c.G.zero (s m).phi := fun m => by
    rw [hG]
    exact hasBC_cheb n hN c hG kappa prodB prodD .GC .GC _ (hinv m).p (hinv m).q
  refine ⟨fun m => (hinv m).U, relax n hN hL c hG r0 r1 (fun m => (s m).phi) hbc (fun m => (hinv m).d) fun m => ?_⟩
  refine hr _ _ ?_
  have := (step _ (hinv m)).2
  rw [← hs] at this
  exact this

/-- C80 for KMM_RB, if `TC` had the quadrature of the temperature space (the argument missing in KMM_RB.py:46). -/
theorem C80_kmm_rb_partial (la : LA (RModes N) (Fin n → ℂ) (Fin (n + 2) → ℂ)) (hla : la.Solves c.nu c.dt c.G c.M)
    (solveT : RModes N → (Fin (n + 2) → ℂ) → Fin (n + 2) → ℂ)
    (hT : SolvesT (chebRB bc .GC .GC n c kappa (prodBwall .GC n (rspace N M)) (prodDwall .GC n (rspace N M))) 1 solveT) :
    ∃ rho : ℝ, 0 ≤ rho ∧ rho < 1 ∧ ∀ s0 : RBSt (RModes N) (Fin n → ℂ) (Fin (n + 2) → ℂ), s0.s.U = ⟨0, 0, 0⟩ → s0.s.U0 = s0.s.U → s0.s.H1 = ⟨0, 0, 0⟩ →
      s0.s.g = 0 → HasBC bc c.G.zero s0.phi → s0.phi0 = s0.phi → s0.phi1 = s0.phi →
      (∀ k, k ≠ c.G.zero → s0.phi.d k = 0) →
      let s := fun m => (tickRB (chebRB bc .GC .GC n c kappa (prodBwall .GC n (rspace N M)) (prodDwall .GC n (rspace N M))) la solveT)^[m] s0
      let T := fun m => tempPoly ((s m).phi.d c.G.zero) ((s m).phi.p c.G.zero) ((s m).phi.q c.G.zero)
      (∀ m, (s m).s.U = ⟨0, 0, 0⟩) ∧
      (∀ m, Galerkin.energy .GC (n + 4) (T m - conduction bc) ≤ rho ^ m * Galerkin.energy .GC (n + 4) (T 0 - conduction bc)) ∧
      ∀ x y z : ℝ, Tendsto (fun m => fieldT L (s m).phi x y z) atTop (𝓝 ((bc.1 + bc.2) / 2 + (bc.1 - bc.2) / 2 * x)) := by
  obtain ⟨rho, r0, r1, hr⟩ := Galerkin.energy_contract .GC n kappa c.dt hkappa hdt
  refine ⟨rho, r0, r1, fun s0 hU hU0 hH hg hb hp0 hp1 hd => ?_⟩
  intro s T
  have hq := quiet_cheb (bc := bc) n hN hL hNM c hG W kind kappa (prodBwall .GC n (rspace N M)) (prodDwall .GC n (rspace N M)) hS hconv .GC .GC
  have hflat : Flat (rspace N M) c.G.zero := by rw [hG]; exact waveGrid_flat hN hNM
  have step := conduct_step n (chebRB bc .GC .GC n c kappa (prodBwall .GC n (rspace N M)) (prodDwall .GC n (rspace N M))) rfl rfl rfl rfl hkappa hdt la hla solveT hT hq
    (prodBwall_rest .GC n hflat) (prodDwall_rest .GC n hflat) s0 hU0 hH hp0 hp1 (layered_start n c kappa _ _ s0.s.U s0.s.g s0.phi hU hg hb hd)
  have hbc : ∀ m, HasBC bc c.G.zero (s m).phi := fun m => by
    rw [hG]
    exact hasBC_cheb n hN c hG kappa (prodBwall .GC n (rspace N M)) (prodDwall .GC n (rspace N M)) .GC .GC _ (step m).1.p (step m).1.q
  exact ⟨fun m => (step m).1.U, relax n hN hL c hG r0 r1 (fun m => (s m).phi) hbc (fun m => (step m).1.d) fun m => hr _ _ (step m).2⟩

end Runs

end SpectralDNS.Channel

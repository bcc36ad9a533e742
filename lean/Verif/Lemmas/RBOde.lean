import Verif.Lemmas.ImexSplit
import Verif.Props.ChannelConverge
import Verif.Props.RBField

/-!
# The Boussinesq equations as an ordinary differential equation
-/

namespace SpectralDNS.Channel

open Spec.Channel Spec Set

variable {κ : Type*} [Fintype κ] [DecidableEq κ] {b d : ℕ}

/-- The unknowns of the flow and the Dirichlet part of the temperature. -/
abbrev RBUnknowns (κ : Type*) (b d : ℕ) := Unknowns κ b d × (κ → Fin d → ℂ)

/-- The equations which KMMRK3_RB discretises in time: velocity without divergence, wall-normal velocity driven by convection and buoyancy, vorticity, mean flow,
heat conduction and convection, with the temperatures of the walls prescribed. -/
structure SemiDiscreteRB (r : RBCtx κ (Fin b → ℂ) (Fin d → ℂ)) (convT : Vel κ (Fin b → ℂ) (Fin d → ℂ) → Temp κ (Fin d → ℂ) → κ → Fin d → ℂ) (T : ℝ)
    (U : ℝ → Vel κ (Fin b → ℂ) (Fin d → ℂ)) (g : ℝ → κ → Fin d → ℂ) (phi : ℝ → Temp κ (Fin d → ℂ)) : Prop where
  sol : ∀ t ∈ Icc 0 T, Solenoidal r.c (U t) (g t)
  normal : ∀ t ∈ Icc 0 T, ∀ k, k ≠ r.c.G.zero → ∃ u', HasDerivWithinAt (fun t => (U t).u k) u' (Icc 0 T) t ∧
    let c := r.c
    let N := c.conv (U t) (g t)
    let m : ℂ := maskAt c.mask k
    lap c.M.BBB c.M.ABB (c.G.Ksq k) u' = (c.nu : ℂ) • bilap c.M.BBB c.M.ABB c.M.SBB (c.G.Ksq k) ((U t).u k)
      + (forceU c.M.BBD c.M.CBD (c.G.Ksq k) (c.G.X1 k) (c.G.X2 k) (m • N.c0 k) (m • N.c1 k) (m • N.c2 k)
        + forceT (c.G.Ksq k) (c.M.BBD ((phi t).d k) + weakLinear ((r.btt0 : ℂ) • r.e0) ((r.btt1 : ℂ) • r.e1) ((phi t).p k) ((phi t).q k)))
  vort : ∀ t ∈ Icc 0 T, ∀ k, ∃ g', HasDerivWithinAt (fun t => g t k) g' (Icc 0 T) t ∧
    let c := r.c
    let N := c.conv (U t) (g t)
    let m : ℂ := maskAt c.mask k
    c.M.BDD g' = (c.nu : ℂ) • lap c.M.BDD c.M.ADD (c.G.Ksq k) (g t k) + forceG c.M.BDD (c.G.X1 k) (c.G.X2 k) (m • N.c1 k) (m • N.c2 k)
  mean1 : ∀ t ∈ Icc 0 T, ∃ v', HasDerivWithinAt (fun t => (U t).v r.c.G.zero) v' (Icc 0 T) t ∧
    let c := r.c
    c.M.BDD0 v' = (c.nu : ℂ) • c.M.ADD0 ((U t).v c.G.zero) + (c.M.BDD0 ((maskAt c.mask c.G.zero : ℂ) • (c.conv (U t) (g t)).c1 c.G.zero) - c.Sk)
  mean2 : ∀ t ∈ Icc 0 T, ∃ w', HasDerivWithinAt (fun t => (U t).w r.c.G.zero) w' (Icc 0 T) t ∧
    let c := r.c
    c.M.BDD0 w' = (c.nu : ℂ) • c.M.ADD0 ((U t).w c.G.zero) + c.M.BDD0 ((maskAt c.mask c.G.zero : ℂ) • (c.conv (U t) (g t)).c2 c.G.zero)
  heat : ∀ t ∈ Icc 0 T, ∀ k, ∃ d', HasDerivWithinAt (fun t => (phi t).d k) d' (Icc 0 T) t ∧
    r.BDDR d' = (r.kappa : ℂ) • lap r.BDDR r.ADDR (r.c.G.Ksq k) ((phi t).d k) - (maskAt r.c.mask k : ℂ) • convT (U t) (phi t) k
  walls : ∀ t ∈ Icc 0 T, (phi t).p = r.bcp ∧ (phi t).q = r.bcq

variable (r : RBCtx κ (Fin b → ℂ) (Fin d → ℂ)) (convT : Vel κ (Fin b → ℂ) (Fin d → ℂ) → Temp κ (Fin d → ℂ) → κ → Fin d → ℂ)

/-- The temperature with Dirichlet part `θ`. -/
def temp (θ : κ → Fin d → ℂ) : Temp κ (Fin d → ℂ) := ⟨θ, r.bcp, r.bcq⟩

/-- A force on the wall-normal velocity. -/
noncomputable def normalForce (F : κ → Fin b → ℂ) : Unknowns κ b d :=
  (fun k => if k = r.c.G.zero then 0 else linv (lap r.c.M.BBB r.c.M.ABB (r.c.G.Ksq k)) (F k), 0, 0, 0)

/-- Weak form of the buoyancy of the Dirichlet part. -/
noncomputable def buoyD (θ : κ → Fin d → ℂ) (k : κ) : Fin b → ℂ := forceT (r.c.G.Ksq k) (r.c.M.BBD (θ k))

/-- Weak form of the buoyancy of the linear profile between the walls. -/
noncomputable def buoyW (k : κ) : Fin b → ℂ :=
  forceT (r.c.G.Ksq k) (weakLinear ((r.btt0 : ℂ) • r.e0) ((r.btt1 : ℂ) • r.e1) (r.bcp k) (r.bcq k))

/-- Viscosity and heat conduction. -/
noncomputable def viscRB (x : RBUnknowns κ b d) : RBUnknowns κ b d :=
  (visc r.c x.1, fun k => linv r.BDDR ((r.kappa : ℂ) • lap r.BDDR r.ADDR (r.c.G.Ksq k) (x.2 k)))

/-- Convection, source and the buoyancy of the linear profile. -/
noncomputable def nonlinRB (x : RBUnknowns κ b d) : RBUnknowns κ b d :=
  (nonlin r.c x.1 + normalForce r (buoyW r), fun k => -linv r.BDDR ((maskAt r.c.mask k : ℂ) • convT (recon r.c x.1) (temp r x.2) k))

/-- The buoyancy of the Dirichlet part of the temperature. -/
noncomputable def buoyRB (x : RBUnknowns κ b d) : RBUnknowns κ b d := (normalForce r (buoyD r x.2), 0)

def unknownsRB (U : Vel κ (Fin b → ℂ) (Fin d → ℂ)) (g : κ → Fin d → ℂ) (phi : Temp κ (Fin d → ℂ)) : RBUnknowns κ b d := (unknowns r.c U g, phi.d)

omit [Fintype κ] in
theorem forceT_add (ksq : ℝ) (x y : Fin b → ℂ) : forceT ksq (x + y) = forceT ksq x + forceT ksq y := by
  simp only [forceT]; module

omit [Fintype κ] in
theorem normalForce_add (F F' : κ → Fin b → ℂ) : normalForce (d := d) r (fun k => F k + F' k) = normalForce r F + normalForce r F' := by
  refine Prod.ext (funext fun k => ?_) (Prod.ext (by simp [normalForce]) (Prod.ext (by simp [normalForce]) (by simp [normalForce])))
  by_cases hk : k = r.c.G.zero <;> simp [normalForce, hk, map_add]

omit [Fintype κ] in
theorem viscRB_lin : IsLin (viscRB r) := by
  obtain ⟨A, hA⟩ := visc_lin r.c
  have h1 : IsLin fun x : RBUnknowns κ b d => visc r.c x.1 := IsLin.id.fst.comp ⟨A, hA⟩
  refine IsLin.prod h1 (IsLin.pi fun k => ?_)
  exact lin_comp (lin_smul (lin_comp (IsLin.id.snd.apply k) _) _) _

omit [Fintype κ] in
theorem buoyRB_lin : IsLin (buoyRB r) := by
  refine IsLin.prod (IsLin.prod (IsLin.pi fun k => ?_) IsLin.zero) IsLin.zero
  by_cases hk : k = r.c.G.zero
  · simp only [if_pos hk]; exact IsLin.zero
  · simp only [if_neg hk, buoyD, forceT]
    exact lin_comp (lin_smul (lin_comp (IsLin.id.snd.apply k) _) _).neg _

/-- The convection of heat is a polynomial of degree at most two in the unknowns. -/
def QuadConvT : Prop := ∀ k, IsQuad fun x : RBUnknowns κ b d => convT (recon r.c x.1) (temp r x.2) k

omit [Fintype κ] in
theorem nonlinRB_quad (hc : QuadConv r.c) (hT : QuadConvT r convT) : IsQuad (nonlinRB r convT) :=
  IsQuad.prod ((IsQuad.comp IsLin.id.fst (nonlin_quad r.c hc)).add (IsQuad.const _)) (IsQuad.pi fun k => (quad_comp (quad_smul (hT k) _) _).neg)

variable {r convT}

theorem SemiDiscreteRB.solves (hr : Regular r.c) (hR : Function.Bijective r.BDDR) (hz : ∀ k, r.c.G.Ksq k = 0 ↔ k = r.c.G.zero) {T : ℝ}
    {U : ℝ → Vel κ (Fin b → ℂ) (Fin d → ℂ)} {g : ℝ → κ → Fin d → ℂ} {phi : ℝ → Temp κ (Fin d → ℂ)} (h : SemiDiscreteRB r convT T U g phi) :
    SolvesOn (fun x => viscRB r x + (nonlinRB r convT x + buoyRB r x)) T fun t => unknownsRB r (U t) (g t) (phi t) := by
  intro t ht
  have hrec := recon_unknowns r.c hr hz (h.sol t ht)
  have hnl := nonlin_unknowns r.c hr hz (h.sol t ht)
  have hph : temp r (phi t).d = phi t := Temp.ext rfl (h.walls t ht).1.symm (h.walls t ht).2.symm
  refine HasDerivWithinAt.prodMk (HasDerivWithinAt.prodMk ?_ (HasDerivWithinAt.prodMk ?_ (HasDerivWithinAt.prodMk ?_ ?_))) ?_
  · rw [hasDerivWithinAt_pi]
    intro k
    by_cases hk : k = r.c.G.zero
    · refine ((hasDerivWithinAt_const t (Icc 0 T) (0 : Fin b → ℂ)).congr (fun s hs => ?_) ?_).congr_deriv ?_
      · rw [hk]; exact (h.sol s hs).2.2
      · rw [hk]; exact (h.sol t ht).2.2
      · simp [viscRB, nonlinRB, buoyRB, normalForce, visc, nonlin, forceLin, srcTerm, hk, unknownsRB]
    · obtain ⟨u', hu, e⟩ := h.normal t ht k hk
      have e' := congrArg (linv (lap r.c.M.BBB r.c.M.ABB (r.c.G.Ksq k))) e
      rw [linv_left (hr.U k), forceT_add, map_add, map_add, map_add] at e'
      rw [e'] at hu
      refine hu.congr_deriv ?_
      simp only [viscRB, nonlinRB, buoyRB, unknownsRB, hnl]
      simp only [normalForce, visc, forceLin, srcTerm, hk, buoyW, buoyD, if_false, Prod.fst_add,
        Pi.add_apply, Pi.zero_apply, maskVec_c0, maskVec_c1, maskVec_c2, unknowns, (h.walls t ht).1, (h.walls t ht).2]
      abel
  · rw [hasDerivWithinAt_pi]
    intro k
    obtain ⟨u', hu, e⟩ := h.vort t ht k
    have e' := congrArg (linv r.c.M.BDD) e
    rw [linv_left hr.D, map_add] at e'
    rw [e'] at hu
    refine hu.congr_deriv ?_
    simp only [viscRB, nonlinRB, buoyRB, unknownsRB, hnl]
    simp [normalForce, visc, forceLin, srcTerm, maskVec_c1, maskVec_c2, unknowns]
  · obtain ⟨u', hu, e⟩ := h.mean1 t ht
    have e' := congrArg (linv r.c.M.BDD0) e
    rw [linv_left hr.D0, map_add, map_sub] at e'
    rw [e'] at hu
    refine hu.congr_deriv ?_
    simp only [viscRB, nonlinRB, buoyRB, unknownsRB, hnl]
    simp [normalForce, visc, forceLin, srcTerm, maskVec_c1, unknowns, sub_eq_add_neg]
  · obtain ⟨u', hu, e⟩ := h.mean2 t ht
    have e' := congrArg (linv r.c.M.BDD0) e
    rw [linv_left hr.D0, map_add] at e'
    rw [e'] at hu
    refine hu.congr_deriv ?_
    simp only [viscRB, nonlinRB, buoyRB, unknownsRB, hnl]
    simp [normalForce, visc, forceLin, srcTerm, maskVec_c2, unknowns]
  · rw [hasDerivWithinAt_pi]
    intro k
    obtain ⟨u', hu, e⟩ := h.heat t ht k
    have e' := congrArg (linv r.BDDR) e
    rw [linv_left hR, map_sub] at e'
    rw [e'] at hu
    refine hu.congr_deriv ?_
    simp only [viscRB, nonlinRB, buoyRB, unknownsRB, hrec, hph, Prod.snd_add, Pi.add_apply, Pi.zero_apply]
    abel

theorem semiDiscreteRB_of_solves (hr : Regular r.c) (hR : Function.Bijective r.BDDR) (hz : ∀ k, r.c.G.Ksq k = 0 ↔ k = r.c.G.zero) {T : ℝ}
    {y : ℝ → RBUnknowns κ b d} (h : SolvesOn (fun x => viscRB r x + (nonlinRB r convT x + buoyRB r x)) T y) :
    SemiDiscreteRB r convT T (fun t => recon r.c (y t).1) (fun t => (y t).1.2.1) fun t => temp r (y t).2 := by
  set f := fun x => viscRB r x + (nonlinRB r convT x + buoyRB r x) with hf
  have hu : ∀ t ∈ Icc 0 T, ∀ k, HasDerivWithinAt (fun t => (y t).1.1 k) ((f (y t)).1.1 k) (Icc 0 T) t :=
    fun t ht k => (hasDerivWithinAt_pi.1 (h t ht).fst.fst) k
  have hg : ∀ t ∈ Icc 0 T, ∀ k, HasDerivWithinAt (fun t => (y t).1.2.1 k) ((f (y t)).1.2.1 k) (Icc 0 T) t :=
    fun t ht k => (hasDerivWithinAt_pi.1 (h t ht).fst.snd.fst) k
  have hθ : ∀ t ∈ Icc 0 T, ∀ k, HasDerivWithinAt (fun t => (y t).2 k) ((f (y t)).2 k) (Icc 0 T) t :=
    fun t ht k => (hasDerivWithinAt_pi.1 (h t ht).snd) k
  refine ⟨fun t ht => recon_solenoidal r.c hr hz _, fun t ht k hk => ⟨(f (y t)).1.1 k, ?_, ?_⟩, fun t ht k => ⟨_, hg t ht k, ?_⟩,
    fun t ht => ⟨(f (y t)).1.2.2.1, ?_, ?_⟩, fun t ht => ⟨(f (y t)).1.2.2.2, ?_, ?_⟩, fun t ht k => ⟨_, hθ t ht k, ?_⟩, fun t _ => ⟨rfl, rfl⟩⟩
  · have := hu t ht k
    refine this.congr (fun s hs => ?_) ?_ <;> simp [recon, Function.update_of_ne hk]
  · simp only [hf, viscRB, nonlinRB, buoyRB, normalForce, visc, nonlin, forceLin, srcTerm, Prod.fst_add, Pi.add_apply, if_neg hk, map_add,
      linv_right (hr.U k), maskVec_c0, maskVec_c1, maskVec_c2, Pi.zero_apply, map_zero, add_zero, forceT_add, buoyW, buoyD, temp]
    simp only [recon, Function.update_of_ne hk]
    abel
  · simp only [hf, viscRB, nonlinRB, buoyRB, normalForce, visc, nonlin, forceLin, srcTerm, Prod.fst_add, Prod.snd_add, Pi.add_apply, map_add,
      linv_right hr.D, maskVec_c1, maskVec_c2, Pi.zero_apply, map_zero, add_zero]
  · have : HasDerivWithinAt (fun t => (y t).1.2.2.1) ((f (y t)).1.2.2.1) (Icc 0 T) t := (h t ht).fst.snd.snd.fst
    refine this.congr (fun s hs => ?_) ?_ <;> simp [recon]
  · simp only [hf, viscRB, nonlinRB, buoyRB, normalForce, visc, nonlin, forceLin, srcTerm, Prod.fst_add, Prod.snd_add, map_add, map_neg,
      linv_right hr.D0, maskVec_c1, map_zero, add_zero]
    simp [recon, sub_eq_add_neg]
  · have : HasDerivWithinAt (fun t => (y t).1.2.2.2) ((f (y t)).1.2.2.2) (Icc 0 T) t := (h t ht).fst.snd.snd.snd
    refine this.congr (fun s hs => ?_) ?_ <;> simp [recon]
  · simp only [hf, viscRB, nonlinRB, buoyRB, normalForce, visc, nonlin, forceLin, srcTerm, Prod.fst_add, Prod.snd_add, map_add,
      linv_right hr.D0, maskVec_c2, map_zero, add_zero]
    simp [recon]
  · simp only [hf, viscRB, nonlinRB, buoyRB, Prod.snd_add, Pi.add_apply, Pi.zero_apply, map_add, map_neg, linv_right hR, add_zero, temp, sub_eq_add_neg]

/-! ### The substeps -/

omit [Fintype κ] in
theorem boussinesq_unknowns (hr : Regular r.c) (hR : Function.Bijective r.BDDR) {δ : ℝ} {h : Vec κ (Fin d → ℂ)} {Q : κ → Fin d → ℂ}
    {U U' : Vel κ (Fin b → ℂ) (Fin d → ℂ)} {g g' : κ → Fin d → ℂ} {phi phi' : Temp κ (Fin d → ℂ)} (hp : phi.p = r.bcp) (hq : phi.q = r.bcq)
    (hs : BoussinesqEq r δ h phi Q U g (U.v r.c.G.zero) (U.w r.c.G.zero) phi U' g' phi') (h0 : U.u r.c.G.zero = 0) (h0' : U'.u r.c.G.zero = 0) :
    unknownsRB r U' g' phi' = unknownsRB r U g phi + (δ / 2) • viscRB r (unknownsRB r U g phi + unknownsRB r U' g' phi')
      + δ • ((forceLin r.c h + srcTerm r.c + normalForce r (buoyW r), fun k => -linv r.BDDR (Q k)) + buoyRB r (unknownsRB r U g phi)) := by
  obtain ⟨h1, h2, h3, h4, h5, -, -⟩ := hs
  refine Prod.ext (Prod.ext ?_ (Prod.ext ?_ (Prod.ext ?_ ?_))) ?_
  · funext k
    by_cases hk : k = r.c.G.zero
    · simp [unknownsRB, unknowns, viscRB, buoyRB, normalForce, visc, forceLin, srcTerm, hk, h0, h0']
    · have := cn_solve (hr.U k) (h1 k hk)
      rw [hp, hq] at this
      simp only [forceT_add, map_add, smul_add] at this
      simp only [unknownsRB, unknowns, viscRB, buoyRB, normalForce, visc, forceLin, srcTerm, hk, buoyW, buoyD, if_false, Prod.fst_add, Prod.smul_fst,
        Pi.add_apply, Pi.smul_apply, Pi.zero_apply, smul_zero, add_zero, map_add, smul_add]
      refine this.trans ?_
      module
  · funext k
    have := cn_solve hr.D (h2 k)
    simpa [unknownsRB, unknowns, viscRB, buoyRB, normalForce, visc, forceLin, srcTerm] using this
  · have := cn_solve hr.D0 h3
    rw [map_sub] at this
    simpa [unknownsRB, unknowns, viscRB, buoyRB, normalForce, visc, forceLin, srcTerm, sub_eq_add_neg] using this
  · have := cn_solve hr.D0 h4
    simpa [unknownsRB, unknowns, viscRB, buoyRB, normalForce, visc, forceLin, srcTerm] using this
  · funext k
    have := cn_solve hR (h5 k)
    rw [map_neg] at this
    simpa [unknownsRB, unknowns, viscRB, buoyRB] using this

end SpectralDNS.Channel

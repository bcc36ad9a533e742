import Verif.Lemmas.Imex
import Verif.Lemmas.SolverQuad
import Verif.Props.CoupledCheb

/-!
# The channel equations as an ordinary differential equation for the wall-normal velocity, the vorticity and the mean flow
-/

namespace SpectralDNS.Channel

open Spec.Channel Spec

variable {κ : Type*} [Fintype κ] [DecidableEq κ] {b d : ℕ}

/-- Inverse of a bijective linear map. -/
noncomputable def linv {V : Type*} [AddCommGroup V] [Module ℂ V] (L : V →ₗ[ℂ] V) : V →ₗ[ℂ] V :=
  open Classical in if h : Function.Bijective L then (LinearEquiv.ofBijective L h).symm.toLinearMap else 0

theorem linv_left {V : Type*} [AddCommGroup V] [Module ℂ V] {L : V →ₗ[ℂ] V} (h : Function.Bijective L) (x : V) : linv L (L x) = x := by
  rw [linv, dif_pos h]
  exact (LinearEquiv.ofBijective L h).symm_apply_apply x

theorem linv_right {V : Type*} [AddCommGroup V] [Module ℂ V] {L : V →ₗ[ℂ] V} (h : Function.Bijective L) (x : V) : L (linv L x) = x := by
  rw [linv, dif_pos h]
  exact (LinearEquiv.ofBijective L h).apply_symm_apply x

/-- The independent unknowns: wall-normal velocity, wall-normal vorticity, and the two mean velocities. -/
abbrev Unknowns (κ : Type*) (b d : ℕ) := (κ → Fin b → ℂ) × (κ → Fin d → ℂ) × (Fin d → ℂ) × (Fin d → ℂ)

variable (c : Ctx κ (Fin b → ℂ) (Fin d → ℂ))

/-- The velocity with given unknowns. -/
noncomputable def recon (x : Unknowns κ b d) : Vel κ (Fin b → ℂ) (Fin d → ℂ) :=
  let f := fun k => linv c.M.BDD (c.M.CDB (-x.1 k))
  ⟨Function.update x.1 c.G.zero 0, Function.update (computeVW c.G f x.2.1).1 c.G.zero x.2.2.1,
    Function.update (computeVW c.G f x.2.1).2 c.G.zero x.2.2.2⟩

/-- The unknowns of a velocity with vorticity `g`. -/
def unknowns (U : Vel κ (Fin b → ℂ) (Fin d → ℂ)) (g : κ → Fin d → ℂ) : Unknowns κ b d := (U.u, g, U.v c.G.zero, U.w c.G.zero)

/-- The matrices in front of the time derivatives are invertible. -/
structure Regular : Prop where
  U : ∀ k, Function.Bijective (lap c.M.BBB c.M.ABB (c.G.Ksq k))
  D : Function.Bijective c.M.BDD
  D0 : Function.Bijective c.M.BDD0

/-- Viscous terms. -/
noncomputable def visc (x : Unknowns κ b d) : Unknowns κ b d :=
  (fun k => if k = c.G.zero then 0 else linv (lap c.M.BBB c.M.ABB (c.G.Ksq k)) ((c.nu : ℂ) • bilap c.M.BBB c.M.ABB c.M.SBB (c.G.Ksq k) (x.1 k)),
    fun k => linv c.M.BDD ((c.nu : ℂ) • lap c.M.BDD c.M.ADD (c.G.Ksq k) (x.2.1 k)),
    linv c.M.BDD0 ((c.nu : ℂ) • c.M.ADD0 x.2.2.1), linv c.M.BDD0 ((c.nu : ℂ) • c.M.ADD0 x.2.2.2))

/-- Terms which a vector `h` causes, without the source. -/
noncomputable def forceLin (h : Vec κ (Fin d → ℂ)) : Unknowns κ b d :=
  (fun k => if k = c.G.zero then 0 else linv (lap c.M.BBB c.M.ABB (c.G.Ksq k))
      (forceU c.M.BBD c.M.CBD (c.G.Ksq k) (c.G.X1 k) (c.G.X2 k) (h.c0 k) (h.c1 k) (h.c2 k)),
    fun k => linv c.M.BDD (forceG c.M.BDD (c.G.X1 k) (c.G.X2 k) (h.c1 k) (h.c2 k)),
    linv c.M.BDD0 (c.M.BDD0 (h.c1 c.G.zero)), linv c.M.BDD0 (c.M.BDD0 (h.c2 c.G.zero)))

/-- The source. -/
noncomputable def srcTerm : Unknowns κ b d := (0, 0, -linv c.M.BDD0 c.Sk, 0)

/-- Convection and source. -/
noncomputable def nonlin (x : Unknowns κ b d) : Unknowns κ b d := forceLin c (maskVec c.mask (c.conv (recon c x) x.2.1)) + srcTerm c

/-! ### Velocities without divergence are determined by the unknowns -/

theorem recon_solenoidal (hr : Regular c) (hz : ∀ k, c.G.Ksq k = 0 ↔ k = c.G.zero) (x : Unknowns κ b d) : Solenoidal c (recon c x) x.2.1 :=
  solenoidal_aux c hz _ _ _ _ _ fun k => by rw [linv_right hr.D, map_neg]

theorem recon_unknowns (hr : Regular c) (hz : ∀ k, c.G.Ksq k = 0 ↔ k = c.G.zero) {U : Vel κ (Fin b → ℂ) (Fin d → ℂ)} {g : κ → Fin d → ℂ}
    (hU : Solenoidal c U g) : recon c (unknowns c U g) = U := by
  obtain ⟨h1, h2, h3⟩ := hU
  obtain ⟨r1, r2, -⟩ := recon_solenoidal c hr hz (unknowns c U g)
  have hu : (recon c (unknowns c U g)).u = U.u := by
    funext k
    show Function.update U.u c.G.zero 0 k = U.u k
    by_cases hk : k = c.G.zero
    · rw [hk, Function.update_self, h3]
    · rw [Function.update_of_ne hk]
  have hvw : ∀ k, k ≠ c.G.zero → (recon c (unknowns c U g)).v k = U.v k ∧ (recon c (unknowns c U g)).w k = U.w k := fun k hk => by
    refine Coupled.vw_unique (c.G.K1 k) (c.G.K2 k) (fun h => hk ((hz k).1 h)) _ _ _ _ ?_ ((r2 k hk).trans (h2 k hk).symm)
    apply hr.D.1
    have e1 := r1 k
    have e2 := h1 k
    rw [hu] at e1
    exact add_left_cancel (e1.trans e2.symm)
  refine Vel.ext hu ?_ ?_ <;> funext k <;> by_cases hk : k = c.G.zero
  · rw [hk]; simp only [recon, unknowns, Function.update_self]
  · exact (hvw k hk).1
  · rw [hk]; simp only [recon, unknowns, Function.update_self]
  · exact (hvw k hk).2

/-! ### Linearity -/

section lin

variable {E : Type*} [AddCommGroup E] [Module ℝ E] {m n : ℕ}

theorem lin_comp {f : E → Fin m → ℂ} (hf : IsLin f) (L : (Fin m → ℂ) →ₗ[ℂ] (Fin n → ℂ)) : IsLin fun u => L (f u) :=
  hf.comp ⟨L.restrictScalars ℝ, fun _ => rfl⟩

theorem quad_comp {f : E → Fin m → ℂ} (hf : IsQuad f) (L : (Fin m → ℂ) →ₗ[ℂ] (Fin n → ℂ)) : IsQuad fun u => L (f u) :=
  hf.lin ⟨L.restrictScalars ℝ, fun _ => rfl⟩

theorem lin_smul {f : E → Fin m → ℂ} (hf : IsLin f) (z : ℂ) : IsLin fun u => z • f u := lin_comp hf (z • LinearMap.id)

theorem quad_smul {f : E → Fin m → ℂ} (hf : IsQuad f) (z : ℂ) : IsQuad fun u => z • f u := quad_comp hf (z • LinearMap.id)

theorem IsLin.prod {F G : Type*} [AddCommGroup F] [Module ℝ F] [AddCommGroup G] [Module ℝ G] {f : E → F} {g : E → G} (hf : IsLin f)
    (hg : IsLin g) : IsLin fun u => (f u, g u) := by
  obtain ⟨A, hA⟩ := hf
  obtain ⟨B, hB⟩ := hg
  exact ⟨A.prod B, fun u => by dsimp only; rw [hA, hB]; rfl⟩

end lin

omit [Fintype κ] in
theorem visc_lin : IsLin (visc c) := by
  have h1 : ∀ k, IsLin fun x : Unknowns κ b d => x.1 k := fun k => IsLin.id.fst.apply k
  have h2 : ∀ k, IsLin fun x : Unknowns κ b d => x.2.1 k := fun k => IsLin.id.snd.fst.apply k
  refine IsLin.prod (IsLin.pi fun k => ?_) (IsLin.prod (IsLin.pi fun k => ?_) (IsLin.prod ?_ ?_))
  · by_cases hk : k = c.G.zero
    · simp only [if_pos hk]; exact IsLin.zero
    · simp only [if_neg hk]; exact lin_comp (lin_smul (lin_comp (h1 k) _) _) _
  · exact lin_comp (lin_smul (lin_comp (h2 k) _) _) _
  · exact lin_comp (lin_smul (lin_comp IsLin.id.snd.snd.fst _) _) _
  · exact lin_comp (lin_smul (lin_comp IsLin.id.snd.snd.snd _) _) _

omit [Fintype κ] in
theorem recon_lin : (∀ k, IsLin fun x => (recon c x).u k) ∧ (∀ k, IsLin fun x => (recon c x).v k) ∧ ∀ k, IsLin fun x => (recon c x).w k := by
  have h1 : ∀ k, IsLin fun x : Unknowns κ b d => x.1 k := fun k => IsLin.id.fst.apply k
  have h2 : ∀ k, IsLin fun x : Unknowns κ b d => x.2.1 k := fun k => IsLin.id.snd.fst.apply k
  have hf : ∀ k, IsLin fun x : Unknowns κ b d => linv c.M.BDD (c.M.CDB (-x.1 k)) := fun k => lin_comp (lin_comp (h1 k).neg _) _
  refine ⟨fun k => ?_, fun k => ?_, fun k => ?_⟩ <;> by_cases hk : k = c.G.zero
  · simp only [recon, hk, Function.update_self]; exact IsLin.zero
  · simp only [recon, Function.update_of_ne hk]; exact h1 k
  · simp only [recon, hk, Function.update_self]; exact IsLin.id.snd.snd.fst
  · simp only [recon, Function.update_of_ne hk, computeVW]
    exact lin_smul ((lin_smul (hf k) _).sub (lin_smul (h2 k) _)) _
  · simp only [recon, hk, Function.update_self]; exact IsLin.id.snd.snd.snd
  · simp only [recon, Function.update_of_ne hk, computeVW]
    exact lin_smul ((lin_smul (hf k) _).add (lin_smul (h2 k) _)) _

/-- The convection is a polynomial of degree at most two in the unknowns. -/
def QuadConv : Prop := ∀ k, IsQuad (fun x => (c.conv (recon c x) x.2.1).c0 k) ∧ IsQuad (fun x => (c.conv (recon c x) x.2.1).c1 k) ∧
  IsQuad fun x => (c.conv (recon c x) x.2.1).c2 k

omit [Fintype κ] in
theorem nonlin_quad (hc : QuadConv c) : IsQuad (nonlin c) := by
  have h0 : ∀ k, IsQuad fun x => (maskVec c.mask (c.conv (recon c x) x.2.1)).c0 k := fun k => by
    simp only [maskVec_c0]; exact quad_smul (hc k).1 _
  have h1 : ∀ k, IsQuad fun x => (maskVec c.mask (c.conv (recon c x) x.2.1)).c1 k := fun k => by
    simp only [maskVec_c1]; exact quad_smul (hc k).2.1 _
  have h2 : ∀ k, IsQuad fun x => (maskVec c.mask (c.conv (recon c x) x.2.1)).c2 k := fun k => by
    simp only [maskVec_c2]; exact quad_smul (hc k).2.2 _
  refine IsQuad.add (IsQuad.prod (IsQuad.pi fun k => ?_) (IsQuad.prod (IsQuad.pi fun k => ?_) (IsQuad.prod ?_ ?_))) (IsQuad.const _)
  · by_cases hk : k = c.G.zero
    · simp only [if_pos hk]; exact IsQuad.const 0
    · simp only [if_neg hk, forceU, map_add, map_smul]
      exact quad_comp ((quad_smul (quad_comp (h0 k) _) _).neg.sub ((quad_smul (quad_comp (h1 k) _) _).add (quad_smul (quad_comp (h2 k) _) _))) _
  · simp only [forceG, Spec.Channel.curl]
    exact quad_comp (quad_comp ((quad_smul (h2 k) _).sub (quad_smul (h1 k) _)) _) _
  · exact quad_comp (quad_comp (h1 _) _) _
  · exact quad_comp (quad_comp (h2 _) _) _

/-! ### The four forms of convection -/

section conv

open Polynomial Periodic

variable {E : Type*} [AddCommGroup E] [Module ℝ E] {P : Type*} {Q : Type*} {e : ℕ} (W : Wall (Fin b → ℂ) (Fin d → ℂ) (Fin e → ℂ) Q)
  {T : Space κ P} (G : Grid κ)

omit [Fintype κ] [DecidableEq κ] in
theorem synth_lin {m : ℕ} (H : LinearSpace T) (L : (Fin m → ℂ) →ₗ[ℂ] ℂ[X]) (x : Q → ℝ) {f : E → κ → Fin m → ℂ} (hf : ∀ k, IsLin fun u => f u k) (q : Q) (p : P) :
    IsLin fun u => synth T x (fun k => L (f u k)) q p :=
  H.back (fun k => (hf k).comp ⟨((Polynomial.leval (x q : ℂ)) ∘ₗ L).restrictScalars ℝ, fun _ => rfl⟩) p

omit [Fintype κ] [DecidableEq κ] in
theorem fwd_quad [Fintype Q] (H : LinearSpace T) {f : E → Q → P → ℝ} (hf : ∀ q p, IsQuad fun u => f u q p) (k : κ) : IsQuad fun u => fwdD W T (f u) k :=
  (IsQuad.pi fun q => H.forw (fun p => hf q p) k).lin (g := fun a => W.fwd a) ⟨W.fwd.restrictScalars ℝ, fun _ => rfl⟩

variable [Fintype Q] (H : LinearSpace T) {U : E → Vel κ (Fin b → ℂ) (Fin d → ℂ)} (hu : ∀ k, IsLin fun x => (U x).u k)
  (hv : ∀ k, IsLin fun x => (U x).v k) (hw : ∀ k, IsLin fun x => (U x).w k)

include hu hv hw

omit [Fintype κ] [DecidableEq κ] [Fintype Q] in
theorem velocity_lin (H : LinearSpace T) (i : Fin 3) (q : Q) (p : P) : IsLin fun x => velocity W T (U x) i q p := by
  fin_cases i
  · exact synth_lin H W.fB W.x hu q p
  · exact synth_lin H W.fD W.x hv q p
  · exact synth_lin H W.fD W.x hw q p

omit [Fintype κ] [DecidableEq κ] in
theorem standard_quad (H : LinearSpace T) (k : κ) : IsQuad (fun x => (standardConvection W T G (U x)).c0 k) ∧
    IsQuad (fun x => (standardConvection W T G (U x)).c1 k) ∧ IsQuad fun x => (standardConvection W T G (U x)).c2 k := by
  have h := velocity_lin W hu hv hw H
  have l1 : ∀ {f : E → κ → Fin b → ℂ} (K : κ → ℝ), (∀ k, IsLin fun x => f x k) → ∀ q p, IsLin fun x => bwdB W T (ik K (f x)) q p :=
    fun K hf q p => synth_lin H W.fB W.x (f := fun x => ik K _) (fun k => lin_smul (hf k) _) q p
  have l2 : ∀ {f : E → κ → Fin d → ℂ} (K : κ → ℝ), (∀ k, IsLin fun x => f x k) → ∀ q p, IsLin fun x => bwdD W T (ik K (f x)) q p :=
    fun K hf q p => synth_lin H W.fD W.x (f := fun x => ik K _) (fun k => lin_smul (hf k) _) q p
  have l3 : ∀ {f : E → κ → Fin d → ℂ}, (∀ k, IsLin fun x => f x k) → ∀ q p,
      IsLin fun x => bwdC W T (fun k => W.projC (derivative (W.fD (f x k)))) q p :=
    fun {f} hf q p => synth_lin H W.fC W.x (f := fun x k => W.projC (derivative (W.fD (f x k))))
      (fun k => lin_comp (hf k) (W.projC ∘ₗ derivative ∘ₗ W.fD)) q p
  have l4 : ∀ q p, IsLin fun x => bwdD W T (fun k => W.projD (derivative (W.fB ((U x).u k)))) q p :=
    fun q p => synth_lin H W.fD W.x (f := fun x k => W.projD (derivative (W.fB ((U x).u k))))
      (fun k => lin_comp (hu k) (W.projD ∘ₗ derivative ∘ₗ W.fB)) q p
  refine ⟨fwd_quad W H (fun q p => ?_) k, fwd_quad W H (fun q p => ?_) k, fwd_quad W H (fun q p => ?_) k⟩
  · exact (((h 0 q p).mul (l4 q p)).add ((h 1 q p).mul (l1 _ hu q p))).add ((h 2 q p).mul (l1 _ hu q p))
  · exact (((h 0 q p).mul (l3 hv q p)).add ((h 1 q p).mul (l2 _ hv q p))).add ((h 2 q p).mul (l2 _ hv q p))
  · exact (((h 0 q p).mul (l3 hw q p)).add ((h 1 q p).mul (l2 _ hw q p))).add ((h 2 q p).mul (l2 _ hw q p))

omit [Fintype κ] [DecidableEq κ] in
theorem divergence_quad (H : LinearSpace T) {R : E → Vec κ (Fin d → ℂ)} (hR : ∀ k, IsQuad (fun x => (R x).c0 k) ∧ IsQuad (fun x => (R x).c1 k) ∧
    IsQuad fun x => (R x).c2 k) (k : κ) : IsQuad (fun x => (divergenceConvection W T G (U x) (R x)).c0 k) ∧
    IsQuad (fun x => (divergenceConvection W T G (U x) (R x)).c1 k) ∧ IsQuad fun x => (divergenceConvection W T G (U x) (R x)).c2 k := by
  have h := velocity_lin W hu hv hw H
  have hp : ∀ i j, IsQuad fun x => fwdD W T (velocity W T (U x) i * velocity W T (U x) j) k :=
    fun i j => fwd_quad W H (fun q p => (h i q p).mul (h j q p)) k
  refine ⟨?_, ?_, ?_⟩
  · exact (((hR k).1.add (quad_comp (hp 0 0) (W.toD ∘ₗ W.projB ∘ₗ derivative ∘ₗ W.fB ∘ₗ W.toB))).add (quad_smul (hp 0 1) _)).add
      (quad_smul (hp 0 2) _)
  · exact (((hR k).2.1.add (quad_comp (hp 0 1) (W.projD ∘ₗ derivative ∘ₗ W.fD))).add (quad_smul (hp 1 1) _)).add (quad_smul (hp 1 2) _)
  · exact (((hR k).2.2.add (quad_comp (hp 0 2) (W.projD ∘ₗ derivative ∘ₗ W.fD))).add (quad_smul (hp 1 2) _)).add (quad_smul (hp 2 2) _)

omit [Fintype κ] [DecidableEq κ] in
theorem vortex_quad (H : LinearSpace T) {g : E → κ → Fin d → ℂ} (hg : ∀ k, IsLin fun x => g x k) (k : κ) :
    IsQuad (fun x => (crossHat W T (velocity W T (U x)) (computeCurl W T G (U x) (g x))).c0 k) ∧
    IsQuad (fun x => (crossHat W T (velocity W T (U x)) (computeCurl W T G (U x) (g x))).c1 k) ∧
    IsQuad fun x => (crossHat W T (velocity W T (U x)) (computeCurl W T G (U x) (g x))).c2 k := by
  have h := velocity_lin W hu hv hw H
  have l1 : ∀ (K : κ → ℂ), ∀ q p, IsLin fun x => bwdB W T (fun k => K k • (U x).u k) q p :=
    fun K q p => synth_lin H W.fB W.x (f := fun x k => K k • (U x).u k) (fun k => lin_smul (hu k) _) q p
  have l3 : ∀ {f : E → κ → Fin d → ℂ}, (∀ k, IsLin fun x => f x k) → ∀ q p, IsLin fun x => bwdC W T (fun k => W.ctd (f x k)) q p :=
    fun {f} hf q p => synth_lin H W.fC W.x (f := fun x k => W.ctd (f x k)) (fun k => lin_comp (hf k) W.ctd) q p
  have c : ∀ (i : Fin 3) q p, IsLin fun x => computeCurl W T G (U x) (g x) i q p := by
    intro i q p
    fin_cases i
    · exact synth_lin H W.fD W.x hg q p
    · exact (l1 (fun k => Complex.I * G.K2 k) q p).sub (l3 hw q p)
    · exact (l1 (fun k => -(Complex.I * G.K1 k)) q p).add (l3 hv q p)
  refine ⟨fwd_quad W H (fun q p => ?_) k, fwd_quad W H (fun q p => ?_) k, fwd_quad W H (fun q p => ?_) k⟩
  · exact ((h 1 q p).mul (c 2 q p)).sub ((h 2 q p).mul (c 1 q p))
  · exact ((h 2 q p).mul (c 0 q p)).sub ((h 0 q p).mul (c 2 q p))
  · exact ((h 0 q p).mul (c 1 q p)).sub ((h 1 q p).mul (c 0 q p))

omit [Fintype κ] [DecidableEq κ] in
theorem convection_quad (H : LinearSpace T) (kind : ConvKind) {g : E → κ → Fin d → ℂ} (hg : ∀ k, IsLin fun x => g x k) (k : κ) :
    IsQuad (fun x => (convection kind W T G (U x) (g x)).c0 k) ∧ IsQuad (fun x => (convection kind W T G (U x) (g x)).c1 k) ∧
    IsQuad fun x => (convection kind W T G (U x) (g x)).c2 k := by
  cases kind with
  | standard =>
    have h := standard_quad W G hu hv hw H k
    exact ⟨quad_smul h.1 _, quad_smul h.2.1 _, quad_smul h.2.2 _⟩
  | divergence =>
    have h := divergence_quad W G hu hv hw H (R := fun _ => ⟨0, 0, 0⟩) (fun k => ⟨IsQuad.const 0, IsQuad.const 0, IsQuad.const 0⟩) k
    exact ⟨quad_smul h.1 _, quad_smul h.2.1 _, quad_smul h.2.2 _⟩
  | skew =>
    have h := divergence_quad W G hu hv hw H (R := fun x => standardConvection W T G (U x)) (fun k => standard_quad W G hu hv hw H k) k
    exact ⟨quad_smul h.1 _, quad_smul h.2.1 _, quad_smul h.2.2 _⟩
  | vortex => exact vortex_quad W G hu hv hw H hg k

end conv

/-- Contexts whose convection is one of the four of `getConvection`. -/
theorem quadConv_convection {P Q : Type*} [Fintype Q] {e : ℕ} (W : Wall (Fin b → ℂ) (Fin d → ℂ) (Fin e → ℂ) Q) {T : Periodic.Space κ P}
    (H : Periodic.LinearSpace T) (kind : ConvKind) {G : Grid κ} (hc : c.conv = convection kind W T G) : QuadConv c := by
  intro k
  simp only [hc]
  obtain ⟨h1, h2, h3⟩ := recon_lin c
  exact convection_quad W G h1 h2 h3 H kind (fun k => IsLin.id.snd.fst.apply k) k

end SpectralDNS.Channel

import Verif.Lemmas.ChannelOde
import Verif.Lemmas.GlobalODE

/-!
# C99: KMM and KMMRK3 converge with second order in the time step
-/

namespace SpectralDNS.Channel

open Spec.Channel Spec Set

variable {κ : Type*} [Fintype κ] [DecidableEq κ] {b d : ℕ}

/-- The equations the solvers discretise in time: for every time in `[0, T]` the velocity is divergence free with wall-normal vorticity `g`, and the
Galerkin equations of the wall-normal velocity, the vorticity and the mean flow hold with the convection of that time. -/
structure SemiDiscrete (c : Ctx κ (Fin b → ℂ) (Fin d → ℂ)) (T : ℝ) (U : ℝ → Vel κ (Fin b → ℂ) (Fin d → ℂ)) (g : ℝ → κ → Fin d → ℂ) : Prop where
  sol : ∀ t ∈ Icc 0 T, Solenoidal c (U t) (g t)
  normal : ∀ t ∈ Icc 0 T, ∀ k, k ≠ c.G.zero → ∃ u', HasDerivWithinAt (fun t => (U t).u k) u' (Icc 0 T) t ∧
    let N := c.conv (U t) (g t)
    let m : ℂ := maskAt c.mask k
    lap c.M.BBB c.M.ABB (c.G.Ksq k) u' = (c.nu : ℂ) • bilap c.M.BBB c.M.ABB c.M.SBB (c.G.Ksq k) ((U t).u k)
      + forceU c.M.BBD c.M.CBD (c.G.Ksq k) (c.G.X1 k) (c.G.X2 k) (m • N.c0 k) (m • N.c1 k) (m • N.c2 k)
  vort : ∀ t ∈ Icc 0 T, ∀ k, ∃ g', HasDerivWithinAt (fun t => g t k) g' (Icc 0 T) t ∧
    let N := c.conv (U t) (g t)
    let m : ℂ := maskAt c.mask k
    c.M.BDD g' = (c.nu : ℂ) • lap c.M.BDD c.M.ADD (c.G.Ksq k) (g t k) + forceG c.M.BDD (c.G.X1 k) (c.G.X2 k) (m • N.c1 k) (m • N.c2 k)
  mean1 : ∀ t ∈ Icc 0 T, ∃ v', HasDerivWithinAt (fun t => (U t).v c.G.zero) v' (Icc 0 T) t ∧
    c.M.BDD0 v' = (c.nu : ℂ) • c.M.ADD0 ((U t).v c.G.zero) + (c.M.BDD0 ((maskAt c.mask c.G.zero : ℂ) • (c.conv (U t) (g t)).c1 c.G.zero) - c.Sk)
  mean2 : ∀ t ∈ Icc 0 T, ∃ w', HasDerivWithinAt (fun t => (U t).w c.G.zero) w' (Icc 0 T) t ∧
    c.M.BDD0 w' = (c.nu : ℂ) • c.M.ADD0 ((U t).w c.G.zero) + c.M.BDD0 ((maskAt c.mask c.G.zero : ℂ) • (c.conv (U t) (g t)).c2 c.G.zero)

/-- Every coefficient array of `U`, `g` is within `ε` of that of `U'`, `g'` (maximum norm). -/
def Within (ε : ℝ) (U : Vel κ (Fin b → ℂ) (Fin d → ℂ)) (g : κ → Fin d → ℂ) (U' : Vel κ (Fin b → ℂ) (Fin d → ℂ)) (g' : κ → Fin d → ℂ) : Prop :=
  ∀ k, ‖U.u k - U'.u k‖ ≤ ε ∧ ‖U.v k - U'.v k‖ ≤ ε ∧ ‖U.w k - U'.w k‖ ≤ ε ∧ ‖g k - g' k‖ ≤ ε

theorem coe_smul_vec {m : ℕ} (r : ℝ) (v : Fin m → ℂ) : (r : ℂ) • v = r • v := by
  funext i; simp

variable (c : Ctx κ (Fin b → ℂ) (Fin d → ℂ))

/-! ### The differential equation -/

theorem SemiDiscrete.solves (hr : Regular c) (hz : ∀ k, c.G.Ksq k = 0 ↔ k = c.G.zero) {T : ℝ} {U : ℝ → Vel κ (Fin b → ℂ) (Fin d → ℂ)}
    {g : ℝ → κ → Fin d → ℂ} (h : SemiDiscrete c T U g) : SolvesOn (fun x => visc c x + nonlin c x) T fun t => unknowns c (U t) (g t) := by
  intro t ht
  have hrec := recon_unknowns c hr hz (h.sol t ht)
  have hg : (unknowns c (U t) (g t)).2.1 = g t := rfl
  simp only [nonlin, hrec, hg]
  refine HasDerivWithinAt.prodMk ?_ (HasDerivWithinAt.prodMk ?_ (HasDerivWithinAt.prodMk ?_ ?_))
  · rw [hasDerivWithinAt_pi]
    intro k
    by_cases hk : k = c.G.zero
    · have e : ((visc c (unknowns c (U t) (g t))).1 + (forceLin c (maskVec c.mask (c.conv (U t) (g t))) + srcTerm c).1) k = 0 := by
        simp [visc, forceLin, srcTerm, hk]
      rw [e]
      refine (hasDerivWithinAt_const t (Icc 0 T) (0 : Fin b → ℂ)).congr (fun s hs => ?_) ?_
      · rw [hk]; exact (h.sol s hs).2.2
      · rw [hk]; exact (h.sol t ht).2.2
    · obtain ⟨u', hu, e⟩ := h.normal t ht k hk
      have e' := congrArg (linv (lap c.M.BBB c.M.ABB (c.G.Ksq k))) e
      rw [linv_left (hr.U k), map_add] at e'
      rw [e'] at hu
      refine hu.congr_deriv ?_
      simp [visc, forceLin, srcTerm, hk, maskVec_c0, maskVec_c1, maskVec_c2, unknowns]
  · rw [hasDerivWithinAt_pi]
    intro k
    obtain ⟨u', hu, e⟩ := h.vort t ht k
    have e' := congrArg (linv c.M.BDD) e
    rw [linv_left hr.D, map_add] at e'
    rw [e'] at hu
    refine hu.congr_deriv ?_
    simp [visc, forceLin, srcTerm, maskVec_c1, maskVec_c2, unknowns]
  · obtain ⟨u', hu, e⟩ := h.mean1 t ht
    have e' := congrArg (linv c.M.BDD0) e
    rw [linv_left hr.D0, map_add, map_sub] at e'
    rw [e'] at hu
    refine hu.congr_deriv ?_
    simp [visc, forceLin, srcTerm, maskVec_c1, unknowns, sub_eq_add_neg]
  · obtain ⟨u', hu, e⟩ := h.mean2 t ht
    have e' := congrArg (linv c.M.BDD0) e
    rw [linv_left hr.D0, map_add] at e'
    rw [e'] at hu
    refine hu.congr_deriv ?_
    simp [visc, forceLin, srcTerm, maskVec_c2, unknowns]

theorem semiDiscrete_of_solves (hr : Regular c) (hz : ∀ k, c.G.Ksq k = 0 ↔ k = c.G.zero) {T : ℝ} {y : ℝ → Unknowns κ b d}
    (h : SolvesOn (fun x => visc c x + nonlin c x) T y) : SemiDiscrete c T (fun t => recon c (y t)) fun t => (y t).2.1 := by
  have hu : ∀ t ∈ Icc 0 T, ∀ k, HasDerivWithinAt (fun t => (y t).1 k) ((visc c (y t) + nonlin c (y t)).1 k) (Icc 0 T) t :=
    fun t ht k => (hasDerivWithinAt_pi.1 (h t ht).fst) k
  have hg : ∀ t ∈ Icc 0 T, ∀ k, HasDerivWithinAt (fun t => (y t).2.1 k) ((visc c (y t) + nonlin c (y t)).2.1 k) (Icc 0 T) t :=
    fun t ht k => (hasDerivWithinAt_pi.1 (h t ht).snd.fst) k
  refine ⟨fun t ht => recon_solenoidal c hr hz _, fun t ht k hk => ⟨(visc c (y t) + nonlin c (y t)).1 k, ?_, ?_⟩,
    fun t ht k => ⟨_, hg t ht k, ?_⟩, fun t ht => ⟨(visc c (y t) + nonlin c (y t)).2.2.1, ?_, ?_⟩,
    fun t ht => ⟨(visc c (y t) + nonlin c (y t)).2.2.2, ?_, ?_⟩⟩
  · have := hu t ht k
    refine this.congr (fun s hs => ?_) ?_ <;> simp [recon, Function.update_of_ne hk]
  · simp only [visc, nonlin, forceLin, srcTerm, Prod.fst_add, Pi.add_apply, if_neg hk, map_add, linv_right (hr.U k), maskVec_c0, maskVec_c1,
      maskVec_c2, Pi.zero_apply, map_zero, add_zero]
    simp [recon, Function.update_of_ne hk]
  · simp only [visc, nonlin, forceLin, srcTerm, Prod.fst_add, Prod.snd_add, Pi.add_apply, map_add, linv_right hr.D, maskVec_c1,
      maskVec_c2, Pi.zero_apply, map_zero, add_zero]
  · have : HasDerivWithinAt (fun t => (y t).2.2.1) ((visc c (y t) + nonlin c (y t)).2.2.1) (Icc 0 T) t := (h t ht).snd.snd.fst
    refine this.congr (fun s hs => ?_) ?_ <;> simp [recon]
  · simp only [visc, nonlin, forceLin, srcTerm, Prod.fst_add, Prod.snd_add, map_add, map_neg, linv_right hr.D0, maskVec_c1]
    simp [recon, sub_eq_add_neg]
  · have : HasDerivWithinAt (fun t => (y t).2.2.2) ((visc c (y t) + nonlin c (y t)).2.2.2) (Icc 0 T) t := (h t ht).snd.snd.snd
    refine this.congr (fun s hs => ?_) ?_ <;> simp [recon]
  · simp only [visc, nonlin, forceLin, srcTerm, Prod.snd_add, map_add, linv_right hr.D0, maskVec_c2, map_zero, add_zero]
    simp [recon]

/-! ### The steps -/

theorem cn_solve {m : ℕ} {L N : (Fin m → ℂ) →ₗ[ℂ] (Fin m → ℂ)} (hL : Function.Bijective L) {nu dt : ℝ} {F x x' : Fin m → ℂ}
    (h : CrankNicolson L N nu dt F x x') : x' = x + (dt / 2) • linv L ((nu : ℂ) • N (x + x')) + dt • linv L F := by
  apply hL.1
  rw [← coe_smul_vec, ← coe_smul_vec, map_add, map_add, map_smul L, map_smul L, linv_right hL, linv_right hL, map_add N]
  unfold CrankNicolson at h
  rw [sub_eq_iff_eq_add] at h
  rw [h]
  push_cast
  module

theorem subEq_unknowns (hr : Regular c) {γ : ℝ} {h : Vec κ (Fin d → ℂ)} {U U' : Vel κ (Fin b → ℂ) (Fin d → ℂ)} {g g' : κ → Fin d → ℂ}
    (hs : SubEq c γ h U g U' g') (h0 : U.u c.G.zero = 0) (h0' : U'.u c.G.zero = 0) :
    unknowns c U' g' = unknowns c U g + (γ * c.dt / 2) • visc c (unknowns c U g + unknowns c U' g') + (γ * c.dt) • (forceLin c h + srcTerm c) := by
  obtain ⟨h1, h2, h3, h4⟩ := hs
  refine Prod.ext ?_ (Prod.ext ?_ (Prod.ext ?_ ?_))
  · funext k
    by_cases hk : k = c.G.zero
    · simp [unknowns, visc, forceLin, srcTerm, hk, h0, h0']
    · have := cn_solve (hr.U k) (h1 k hk)
      simpa [unknowns, visc, forceLin, srcTerm, hk] using this
  · funext k
    have := cn_solve hr.D (h2 k)
    simpa [unknowns, visc, forceLin, srcTerm] using this
  · have := cn_solve hr.D0 h3
    rw [map_sub] at this
    simpa [unknowns, visc, forceLin, srcTerm, sub_eq_add_neg] using this
  · have := cn_solve hr.D0 h4
    simpa [unknowns, visc, forceLin, srcTerm] using this

theorem force_combine (x y : ℝ) (hxy : x + y = 1) (N N' : Vec κ (Fin d → ℂ)) :
    forceLin c (combine c.mask x y N N') + srcTerm c
      = x • (forceLin c (maskVec c.mask N) + srcTerm c) + y • (forceLin c (maskVec c.mask N') + srcTerm c) := by
  have e : forceLin c (combine c.mask x y N N') = x • forceLin c (maskVec c.mask N) + y • forceLin c (maskVec c.mask N') := by
    have key : ∀ {m : ℕ} (r : ℝ) (v : Fin m → ℂ), r • v = (r : ℂ) • v := fun r v => (coe_smul_vec r v).symm
    refine Prod.ext ?_ (Prod.ext ?_ (Prod.ext ?_ ?_))
    · funext k
      by_cases hk : k = c.G.zero
      · simp [forceLin, hk]
      · simp only [forceLin, combine, forceU, if_neg hk, Prod.fst_add, Prod.smul_fst, Pi.add_apply, Pi.smul_apply, maskVec_c0, maskVec_c1, maskVec_c2, key,
          map_add, map_sub, map_neg, map_smul]
        module
    · funext k
      simp only [forceLin, combine, forceG, Spec.Channel.curl, Prod.fst_add, Prod.smul_fst, Prod.snd_add, Prod.smul_snd, Pi.add_apply, Pi.smul_apply, maskVec_c1, maskVec_c2,
        key, map_add, map_sub, map_smul]
      module
    · simp only [forceLin, combine, Prod.fst_add, Prod.smul_fst, Prod.snd_add, Prod.smul_snd, maskVec_c1, key, map_add, map_smul]
      module
    · simp only [forceLin, combine, Prod.snd_add, Prod.smul_snd, maskVec_c2, key, map_add, map_smul]
      module
  rw [e]
  have : srcTerm c = (x + y) • srcTerm c := by rw [hxy, one_smul]
  rw [smul_add, smul_add]
  nth_rewrite 1 [this]
  module

theorem nonlin_unknowns (hr : Regular c) (hz : ∀ k, c.G.Ksq k = 0 ↔ k = c.G.zero) {U : Vel κ (Fin b → ℂ) (Fin d → ℂ)} {g : κ → Fin d → ℂ}
    (hU : Solenoidal c U g) : nonlin c (unknowns c U g) = forceLin c (maskVec c.mask (c.conv U g)) + srcTerm c := by
  rw [nonlin, recon_unknowns c hr hz hU]; rfl

theorem stepEq_subEq {N Nold : Vec κ (Fin d → ℂ)} {U U' : Vel κ (Fin b → ℂ) (Fin d → ℂ)} {g g' : κ → Fin d → ℂ}
    (h : StepEq c N Nold U g (U.v c.G.zero) (U.w c.G.zero) U' g') : SubEq c 1 (combine c.mask (3 / 2) (-1 / 2) N Nold) U g U' g' := by
  have e : ∀ (k : κ) (x y : Fin d → ℂ), (maskAt c.mask k : ℂ) • (((3 / 2 : ℝ) : ℂ) • x + ((-1 / 2 : ℝ) : ℂ) • y) = ab2Mid (maskAt c.mask k) x y :=
    fun k x y => by rw [ab2Mid]; congr 1; push_cast; module
  obtain ⟨h1, h2, h3, h4⟩ := h
  refine ⟨fun k hk => ?_, fun k => ?_, ?_, ?_⟩ <;> simp only [combine, e, one_mul]
  · exact h1 k hk
  · exact h2 k
  · exact h3
  · exact h4

/-! ### Bounds -/

theorem within_of_unknowns (hr : Regular c) (hz : ∀ k, c.G.Ksq k = 0 ↔ k = c.G.zero) : ∃ K : ℝ, 0 ≤ K ∧
    ∀ (U : Vel κ (Fin b → ℂ) (Fin d → ℂ)) (g) (U' : Vel κ (Fin b → ℂ) (Fin d → ℂ)) (g'), Solenoidal c U g → Solenoidal c U' g' →
      ∀ ε, ‖unknowns c U g - unknowns c U' g'‖ ≤ ε → Within (K * ε) U g U' g' := by
  obtain ⟨-, hv, hw⟩ := recon_lin c
  obtain ⟨V, hV⟩ := IsLin.pi hv
  obtain ⟨W, hW⟩ := IsLin.pi hw
  set V' := LinearMap.toContinuousLinearMap V with hV'
  set W' := LinearMap.toContinuousLinearMap W with hW'
  refine ⟨1 + ‖V'‖ + ‖W'‖, by positivity, fun U g U' g' hU hU' ε hε k => ?_⟩
  have hε0 : 0 ≤ ε := (norm_nonneg _).trans hε
  have hvv : 0 ≤ ‖V'‖ * ε := by positivity
  have hww : 0 ≤ ‖W'‖ * ε := by positivity
  have ex : (1 + ‖V'‖ + ‖W'‖) * ε = ε + ‖V'‖ * ε + ‖W'‖ * ε := by ring
  rw [ex]
  have eV : ∀ {U : Vel κ (Fin b → ℂ) (Fin d → ℂ)} {g}, Solenoidal c U g → V' (unknowns c U g) = U.v := fun {U g} hU => by
    show V (unknowns c U g) = _
    rw [← hV]; dsimp only; rw [recon_unknowns c hr hz hU]
  have eW : ∀ {U : Vel κ (Fin b → ℂ) (Fin d → ℂ)} {g}, Solenoidal c U g → W' (unknowns c U g) = U.w := fun {U g} hU => by
    show W (unknowns c U g) = _
    rw [← hW]; dsimp only; rw [recon_unknowns c hr hz hU]
  refine ⟨?_, ?_, ?_, ?_⟩
  · have h1 : ‖U.u k - U'.u k‖ ≤ ε := ((norm_le_pi_norm (U.u - U'.u) k).trans (norm_fst_le (unknowns c U g - unknowns c U' g'))).trans hε
    linarith
  · have h1 : ‖U.v k - U'.v k‖ ≤ ‖V'‖ * ε := by
      refine (norm_le_pi_norm (U.v - U'.v) k).trans ?_
      rw [← eV hU, ← eV hU', ← map_sub]
      exact (V'.le_opNorm _).trans (mul_le_mul_of_nonneg_left hε (norm_nonneg _))
    linarith
  · have h1 : ‖U.w k - U'.w k‖ ≤ ‖W'‖ * ε := by
      refine (norm_le_pi_norm (U.w - U'.w) k).trans ?_
      rw [← eW hU, ← eW hU', ← map_sub]
      exact (W'.le_opNorm _).trans (mul_le_mul_of_nonneg_left hε (norm_nonneg _))
    linarith
  · have h1 : ‖g k - g' k‖ ≤ ε := ((norm_le_pi_norm (g - g') k).trans
      ((norm_fst_le (unknowns c U g - unknowns c U' g').2).trans (norm_snd_le (unknowns c U g - unknowns c U' g')))).trans hε
    linarith

theorem force_bound : ∃ K : ℝ, 0 ≤ K ∧ ∀ (N N' : Vec κ (Fin d → ℂ)) (ε : ℝ), 0 ≤ ε →
    (∀ k, ‖N.c0 k - N'.c0 k‖ ≤ ε ∧ ‖N.c1 k - N'.c1 k‖ ≤ ε ∧ ‖N.c2 k - N'.c2 k‖ ≤ ε) →
    ‖forceLin c (maskVec c.mask N) - forceLin c (maskVec c.mask N')‖ ≤ K * ε := by
  let f : (κ → Fin d → ℂ) × (κ → Fin d → ℂ) × (κ → Fin d → ℂ) → Unknowns κ b d := fun a => forceLin c (maskVec c.mask ⟨a.1, a.2.1, a.2.2⟩)
  have hf : IsLin f := by
    have h0 : ∀ k, IsLin fun a : (κ → Fin d → ℂ) × (κ → Fin d → ℂ) × (κ → Fin d → ℂ) => (maskVec c.mask ⟨a.1, a.2.1, a.2.2⟩).c0 k := fun k => by
      simp only [maskVec_c0]; exact lin_smul (IsLin.id.fst.apply k) _
    have h1 : ∀ k, IsLin fun a : (κ → Fin d → ℂ) × (κ → Fin d → ℂ) × (κ → Fin d → ℂ) => (maskVec c.mask ⟨a.1, a.2.1, a.2.2⟩).c1 k := fun k => by
      simp only [maskVec_c1]; exact lin_smul (IsLin.id.snd.fst.apply k) _
    have h2 : ∀ k, IsLin fun a : (κ → Fin d → ℂ) × (κ → Fin d → ℂ) × (κ → Fin d → ℂ) => (maskVec c.mask ⟨a.1, a.2.1, a.2.2⟩).c2 k := fun k => by
      simp only [maskVec_c2]; exact lin_smul (IsLin.id.snd.snd.apply k) _
    refine IsLin.prod (IsLin.pi fun k => ?_) (IsLin.prod (IsLin.pi fun k => ?_) (IsLin.prod ?_ ?_))
    · by_cases hk : k = c.G.zero
      · simp only [if_pos hk]; exact IsLin.zero
      · simp only [if_neg hk, forceU]
        exact lin_comp ((lin_smul (lin_comp (h0 k) _) _).neg.sub (lin_comp ((lin_smul (h1 k) _).add (lin_smul (h2 k) _)) _)) _
    · simp only [forceG, Spec.Channel.curl]
      exact lin_comp (lin_comp ((lin_smul (h2 k) _).sub (lin_smul (h1 k) _)) _) _
    · exact lin_comp (lin_comp (h1 _) _) _
    · exact lin_comp (lin_comp (h2 _) _) _
  obtain ⟨F, hF⟩ := hf
  set F' := LinearMap.toContinuousLinearMap F with hF'
  refine ⟨‖F'‖, norm_nonneg _, fun N N' ε hε h => ?_⟩
  have e : forceLin c (maskVec c.mask N) - forceLin c (maskVec c.mask N') = F' ((N.c0, N.c1, N.c2) - (N'.c0, N'.c1, N'.c2)) := by
    rw [map_sub]
    show f (N.c0, N.c1, N.c2) - f (N'.c0, N'.c1, N'.c2) = _
    rw [hF, hF]; rfl
  rw [e]
  refine (F'.le_opNorm _).trans (mul_le_mul_of_nonneg_left ?_ (norm_nonneg _))
  refine max_le ?_ (max_le ?_ ?_)
  · exact (pi_norm_le_iff_of_nonneg hε).2 fun k => (h k).1
  · exact (pi_norm_le_iff_of_nonneg hε).2 fun k => (h k).2.1
  · exact (pi_norm_le_iff_of_nonneg hε).2 fun k => (h k).2.2

/-! ### Convergence with any matrices and convection -/

theorem kmm_step {c : Ctx κ (Fin b → ℂ) (Fin d → ℂ)} (hr : Regular c) (hz : ∀ k, c.G.Ksq k = 0 ↔ k = c.G.zero) (hnu : c.nu ≠ 0) {dt : ℝ} (hdt : dt ≠ 0)
    (la : LA κ (Fin b → ℂ) (Fin d → ℂ)) (hla : la.Solves c.nu dt c.G c.M) (s : St κ (Fin b → ℂ) (Fin d → ℂ)) (hs : s.U0 = s.U)
    (hsol : Solenoidal c s.U s.g) :
    unknowns c (tick { c with dt := dt } la id s).U (tick { c with dt := dt } la id s).g
      = unknowns c s.U s.g + (dt / 2) • visc c (unknowns c s.U s.g + unknowns c (tick { c with dt := dt } la id s).U (tick { c with dt := dt } la id s).g)
        + dt • ((3 / 2 : ℝ) • nonlin c (unknowns c s.U s.g) - (1 / 2 : ℝ) • (forceLin c (maskVec c.mask s.H1) + srcTerm c)) := by
  set cd : Ctx κ (Fin b → ℂ) (Fin d → ℂ) := { c with dt := dt } with hcd
  have hstep := C34_step cd la hnu hdt hla s
  rw [hs] at hstep
  have hsol' : Solenoidal c (integrate cd la s).U (integrate cd la s).g := C33_kmm cd la hla.tdmaD hz _ _ _
  have h1 : unknowns c (integrate cd la s).U (integrate cd la s).g = unknowns c s.U s.g
      + (1 * dt / 2) • visc c (unknowns c s.U s.g + unknowns c (integrate cd la s).U (integrate cd la s).g)
      + (1 * dt) • (forceLin c (combine c.mask (3 / 2) (-1 / 2) (c.conv s.U s.g) s.H1) + srcTerm c) :=
    subEq_unknowns cd ⟨hr.U, hr.D, hr.D0⟩ (stepEq_subEq cd hstep) hsol.2.2 hsol'.2.2
  rw [force_combine c _ _ (by norm_num), ← nonlin_unknowns c hr hz hsol, one_mul] at h1
  have e : (tick cd la id s).U = (integrate cd la s).U ∧ (tick cd la id s).g = (integrate cd la s).g := ⟨rfl, rfl⟩
  rw [e.1, e.2]
  refine h1.trans ?_
  congr 2
  module

section general

variable {c} (hr : Regular c) (hz : ∀ k, c.G.Ksq k = 0 ↔ k = c.G.zero) (hq : QuadConv c) (hnu : c.nu ≠ 0) {T : ℝ} (hT : 0 ≤ T)
  {U : ℝ → Vel κ (Fin b → ℂ) (Fin d → ℂ)} {g : ℝ → κ → Fin d → ℂ} (hU : SemiDiscrete c T U g)

include hr hz hq hnu hT hU

theorem kmm_converges {c0 : ℝ} (hc0 : 0 ≤ c0) : ∃ C H0 : ℝ, 0 < H0 ∧ ∀ dt, 0 < dt → dt ≤ H0 → ∀ la : LA κ (Fin b → ℂ) (Fin d → ℂ),
    la.Solves c.nu dt c.G c.M → ∀ s0 : St κ (Fin b → ℂ) (Fin d → ℂ), s0.U = U 0 → s0.U0 = U 0 → s0.g = g 0 →
    (∀ k, ‖s0.H1.c0 k - (c.conv (U 0) (g 0)).c0 k‖ ≤ c0 * dt ∧ ‖s0.H1.c1 k - (c.conv (U 0) (g 0)).c1 k‖ ≤ c0 * dt ∧
      ‖s0.H1.c2 k - (c.conv (U 0) (g 0)).c2 k‖ ≤ c0 * dt) →
    ∀ n : ℕ, n * dt ≤ T → let s := (tick { c with dt := dt } la id)^[n] s0
      Within (C * dt ^ 2) s.U s.g (U (n * dt)) (g (n * dt)) := by
  obtain ⟨A, hA⟩ := visc_lin c
  obtain ⟨K, hK, HK⟩ := within_of_unknowns c hr hz
  obtain ⟨K', hK', HK'⟩ := force_bound c
  have h0T : (0 : ℝ) ∈ Icc 0 T := ⟨le_rfl, hT⟩
  have hy := hU.solves c hr hz
  simp only [hA] at hy
  obtain ⟨C, H0, hH0, H⟩ := cnab2_global (LinearMap.toContinuousLinearMap A) (nonlin_quad c hq).field hT hy (c := K' * c0) (by positivity)
  refine ⟨K * C, H0, hH0, fun dt hdt hdt' la hla s0 e1 e2 e3 e4 n hn => ?_⟩
  intro s
  set cd : Ctx κ (Fin b → ℂ) (Fin d → ℂ) := { c with dt := dt } with hcd
  have hsol : ∀ n, Solenoidal c ((tick cd la id)^[n] s0).U ((tick cd la id)^[n] s0).g := fun n => by
    cases n with
    | zero => rw [Function.iterate_zero, id_eq, e1, e3]; exact hU.sol 0 h0T
    | succ n => rw [Function.iterate_succ_apply']; exact C33_kmm cd la hla.tdmaD hz _ _ _
  have hU0 : ∀ n, ((tick cd la id)^[n] s0).U0 = ((tick cd la id)^[n] s0).U := fun n => by
    cases n with
    | zero => exact e2.trans e1.symm
    | succ n => rw [Function.iterate_succ_apply']; rfl
  set x : ℕ → Unknowns κ b d := fun n => unknowns c ((tick cd la id)^[n] s0).U ((tick cd la id)^[n] s0).g with hx
  set G : ℕ → Unknowns κ b d := fun n => forceLin c (maskVec c.mask ((tick cd la id)^[n] s0).H1) + srcTerm c with hG
  have hstep : ∀ n, x (n + 1) = x n + (dt / 2) • LinearMap.toContinuousLinearMap A (x n + x (n + 1))
      + dt • ((3 / 2 : ℝ) • nonlin c (x n) - (1 / 2 : ℝ) • G n) := by
    intro n
    have h1 := kmm_step hr hz hnu hdt.ne' la hla _ (hU0 n) (hsol n)
    rw [hA] at h1
    simp only [hx, hG, Function.iterate_succ_apply']
    exact h1
  have hGn : ∀ n, G (n + 1) = nonlin c (x n) := fun n => by
    simp only [hx, hG, Function.iterate_succ_apply', nonlin_unknowns c hr hz (hsol n)]
    rfl
  have hn' := H dt hdt.le hdt' x G (by simp only [hx, Function.iterate_zero, id_eq, e1, e3]) ?_ hGn hstep n hn
  · refine HK _ _ _ _ (hsol n) (hU.sol _ ⟨by positivity, hn⟩) _ hn' |> fun h => ?_
    rwa [← mul_assoc] at h
  · rw [nonlin_unknowns c hr hz (hU.sol 0 h0T)]
    simp only [hG, Function.iterate_zero, id_eq]
    rw [add_sub_add_right_eq_sub, mul_assoc]
    exact HK' _ _ _ (by positivity) e4

theorem kmmrk3_converges : ∃ C H0 : ℝ, 0 < H0 ∧ ∀ dt, 0 < dt → dt ≤ H0 → ∀ la : Fin 3 → LA κ (Fin b → ℂ) (Fin d → ℂ),
    (∀ rk, (la rk).Solves3 c.nu dt (rkA rk + rkB rk) c.G c.M) → ∀ s0 : St3 κ (Fin b → ℂ) (Fin d → ℂ), s0.U = U 0 → s0.g = g 0 →
    ∀ n : ℕ, n * dt ≤ T → let s := (tick3 { c with dt := dt } la id)^[n] s0
      Within (C * dt ^ 2) s.U s.g (U (n * dt)) (g (n * dt)) := by
  obtain ⟨A, hA⟩ := visc_lin c
  obtain ⟨K, hK, HK⟩ := within_of_unknowns c hr hz
  have h0T : (0 : ℝ) ∈ Icc 0 T := ⟨le_rfl, hT⟩
  have hy := hU.solves c hr hz
  simp only [hA] at hy
  obtain ⟨C, H0, hH0, H⟩ := rk3_global (LinearMap.toContinuousLinearMap A) (nonlin_quad c hq).field hT hy
  refine ⟨K * C, H0, hH0, fun dt hdt hdt' la hla s0 e1 e3 n hn => ?_⟩
  intro s
  set cd : Ctx κ (Fin b → ℂ) (Fin d → ℂ) := { c with dt := dt } with hcd
  have hsub : ∀ rk s, Solenoidal c (substep cd la rk s).U (substep cd la rk s).g := fun rk s => C33_kmmrk3 cd (la rk) (hla rk).tdmaD hz _ _ _ _
  have hsol : ∀ n, Solenoidal c ((tick3 cd la id)^[n] s0).U ((tick3 cd la id)^[n] s0).g := fun n => by
    cases n with
    | zero => rw [Function.iterate_zero, id_eq, e1, e3]; exact hU.sol 0 h0T
    | succ n => rw [Function.iterate_succ_apply']; exact hsub _ _
  set x : ℕ → Unknowns κ b d := fun n => unknowns c ((tick3 cd la id)^[n] s0).U ((tick3 cd la id)^[n] s0).g with hx
  have hone : ∀ (γ α β : ℝ), α + β = 1 → ∀ {V V' W : Vel κ (Fin b → ℂ) (Fin d → ℂ)} {p p' r : κ → Fin d → ℂ}, Solenoidal c V p → Solenoidal c V' p' →
      Solenoidal c W r → SubEq cd γ (combine c.mask α β (c.conv V p) (c.conv W r)) V p V' p' →
      SubStep (LinearMap.toContinuousLinearMap A) (nonlin c) dt γ α β (unknowns c W r) (unknowns c V p) (unknowns c V' p') := by
    intro γ α β hab V V' W p p' r hV hV' hW hs
    have h1 : unknowns c V' p' = unknowns c V p + (γ * dt / 2) • visc c (unknowns c V p + unknowns c V' p')
      + (γ * dt) • (forceLin c (combine c.mask α β (c.conv V p) (c.conv W r)) + srcTerm c) :=
      subEq_unknowns cd ⟨hr.U, hr.D, hr.D0⟩ hs hV.2.2 hV'.2.2
    rw [force_combine c α β hab, ← nonlin_unknowns c hr hz hV, ← nonlin_unknowns c hr hz hW, hA] at h1
    exact h1
  have hstep : ∀ n, RK3Step (LinearMap.toContinuousLinearMap A) (nonlin c) dt (x n) (x (n + 1)) := by
    intro n
    set t := (tick3 cd la id)^[n] s0 with ht
    have hxn : x n = unknowns c t.U t.g := rfl
    have hxn' : x (n + 1) = unknowns c (integrate3 cd la t).U (integrate3 cd la t).g := by
      rw [hx]; dsimp only; rw [Function.iterate_succ_apply', ← ht]; rfl
    obtain ⟨h0, h1, h2, -⟩ := C35_fractions
    have hs0 := substep_eq cd la hnu hdt.ne' 0 (hla 0) t _ h0 (by norm_num) (cd.conv t.U t.g) (Or.inl rfl)
    have hs1 := substep_eq cd la hnu hdt.ne' 1 (hla 1) (substep cd la 0 t) _ h1 (by norm_num) _ (Or.inr (substep_stored cd la 0 t))
    have hs2 := substep_eq cd la hnu hdt.ne' 2 (hla 2) (substep cd la 1 (substep cd la 0 t)) _ h2 (by norm_num) _
      (Or.inr (substep_stored cd la 1 _))
    rw [show rkA 0 / (8 / 15) = 1 by show (8 / 15 : ℝ) / (8 / 15) = 1; norm_num, show rkB 0 / (8 / 15) = 0 by
      show (0 : ℝ) / (8 / 15) = 0; norm_num] at hs0
    rw [show rkA 1 / (2 / 15) = 25 / 8 by show (5 / 12 : ℝ) / (2 / 15) = _; norm_num, show rkB 1 / (2 / 15) = -17 / 8 by
      show (-17 / 60 : ℝ) / (2 / 15) = _; norm_num] at hs1
    rw [show rkA 2 / (1 / 3) = 9 / 4 by show (3 / 4 : ℝ) / (1 / 3) = _; norm_num, show rkB 2 / (1 / 3) = -5 / 4 by
      show (-5 / 12 : ℝ) / (1 / 3) = _; norm_num] at hs2
    rw [hxn, hxn']
    exact ⟨_, _, hone _ _ _ (by norm_num) (hsol n) (hsub 0 t) (hsol n) hs0, hone _ _ _ (by norm_num) (hsub 0 t) (hsub 1 _) (hsol n) hs1,
      hone _ _ _ (by norm_num) (hsub 1 _) (hsub 2 _) (hsub 0 t) hs2⟩
  have hn' := H dt hdt.le hdt' x (by simp [hx, e1, e3]) hstep n hn
  refine HK _ _ _ _ (hsol n) (hU.sol _ ⟨by positivity, hn⟩) _ hn' |> fun h => ?_
  rwa [← mul_assoc] at h

end general

/-! ### Existence and uniqueness of the solution -/

theorem exists_local {E : Type*} [NormedAddCommGroup E] [NormedSpace ℝ E] [CompleteSpace E] {f : E → E} (hf : QuadField f) (u0 : E) :
    ∃ T : ℝ, 0 < T ∧ ∃ y : ℝ → E, y 0 = u0 ∧ SolvesOn f T y := by
  obtain ⟨M, L, hM, hL, Hb, Hl⟩ := hf.bounds (‖u0‖ + 1)
  have hball : ∀ u ∈ Metric.closedBall u0 ((1 : NNReal) : ℝ), ‖u‖ ≤ ‖u0‖ + 1 := fun u hu => by
    rw [mem_closedBall_iff_norm] at hu
    have := norm_sub_norm_le u u0
    have : ((1 : NNReal) : ℝ) = 1 := rfl
    linarith
  have hT : (0 : ℝ) < 1 / (M + 1) := by positivity
  have hpl : IsPicardLindelof (fun _ u => f u) (tmin := 0) (tmax := 1 / (M + 1)) ⟨0, le_refl _, hT.le⟩ u0 1 0 M.toNNReal L.toNNReal :=
    { lipschitzOnWith := fun t _ => LipschitzOnWith.of_dist_le_mul fun u hu w hw => by
        rw [dist_eq_norm, dist_eq_norm, Real.coe_toNNReal L hL]; exact Hl u w (hball u hu) (hball w hw)
      continuousOn := fun u _ => continuousOn_const
      norm_le := fun t _ u hu => by rw [Real.coe_toNNReal M hM]; exact Hb u (hball u hu)
      mul_max_le := by
        rw [Real.coe_toNNReal M hM]
        simp only [sub_zero, sub_self, NNReal.coe_one, NNReal.coe_zero]
        rw [max_eq_left hT.le, mul_one_div, div_le_one (by positivity)]
        linarith }
  obtain ⟨y, hy0, hy⟩ := hpl.exists_eq_forall_mem_Icc_hasDerivWithinAt₀
  exact ⟨_, hT, y, hy0, hy⟩

theorem semiDiscrete_exists (hr : Regular c) (hz : ∀ k, c.G.Ksq k = 0 ↔ k = c.G.zero) (hq : QuadConv c) {U0 : Vel κ (Fin b → ℂ) (Fin d → ℂ)}
    {g0 : κ → Fin d → ℂ} (h0 : Solenoidal c U0 g0) : ∃ T : ℝ, 0 < T ∧ ∃ U g, U 0 = U0 ∧ g 0 = g0 ∧ SemiDiscrete c T U g := by
  obtain ⟨T, hT, y, hy0, hy⟩ := exists_local ((visc_lin c).quad.add (nonlin_quad c hq)).field (unknowns c U0 g0)
  refine ⟨T, hT, _, _, ?_, ?_, semiDiscrete_of_solves c hr hz hy⟩
  · rw [hy0, recon_unknowns c hr hz h0]
  · rw [hy0]; rfl

theorem semiDiscrete_unique (hr : Regular c) (hz : ∀ k, c.G.Ksq k = 0 ↔ k = c.G.zero) (hq : QuadConv c) {T : ℝ}
    {U V : ℝ → Vel κ (Fin b → ℂ) (Fin d → ℂ)} {g p : ℝ → κ → Fin d → ℂ} (hU : SemiDiscrete c T U g) (hV : SemiDiscrete c T V p)
    (h0 : U 0 = V 0) (h1 : g 0 = p 0) : ∀ t ∈ Icc 0 T, U t = V t ∧ g t = p t := by
  intro t ht
  have h := (hU.solves c hr hz).unique ((visc_lin c).quad.add (nonlin_quad c hq)).field (hV.solves c hr hz) (by rw [h0, h1]) ht
  dsimp only at h
  refine ⟨?_, congrArg (fun x => x.2.1) h⟩
  rw [← recon_unknowns c hr hz (hU.sol t ht), ← recon_unknowns c hr hz (hV.sol t ht), h]

/-! ### The Chebyshev bases -/

section cheb

open Polynomial Periodic

theorem cheb_regular {κ : Type*} [DecidableEq κ] {n : ℕ} (q : Quad) (c : Ctx κ (Fin n → ℂ) (Fin (n + 2) → ℂ)) (hM : c.M = chebMats q n) : Regular c := by
  refine ⟨fun k => ?_, by rw [hM]; exact Galerkin.mass_bijective q n, by rw [hM]; exact Galerkin.mass_bijective q n⟩
  have h := helmholtz_bijective q (n + 4) n psi 4 le_rfl (by omega) degree_psi (fun x => by
    obtain ⟨r, hr⟩ := expand_psi x
    exact ⟨(1 - X ^ 2) * r, by rw [hr]; ring⟩) (c.G.Ksq k) (add_nonneg (mul_self_nonneg _) (mul_self_nonneg _))
  have e : (lap c.M.BBB c.M.ABB (c.G.Ksq k) : (Fin n → ℂ) → Fin n → ℂ) = fun v =>
      -(-matC (entry q (n + 4) psi psi 2 n n) v + ((c.G.Ksq k : ℝ) : ℂ) • matC (entry q (n + 4) psi psi 0 n n) v) := by
    funext v
    rw [hM]
    simp only [lap, chebMats, LinearMap.sub_apply, LinearMap.smul_apply]
    abel
  rw [e]
  exact (Equiv.neg _).bijective.comp h

theorem eval_bound {m : ℕ} (Lf : (Fin m → ℂ) →ₗ[ℂ] ℂ[X]) : ∃ K : ℝ, 0 ≤ K ∧ ∀ v, ∀ x ∈ Icc (-1 : ℝ) 1, ‖(Lf v).eval (x : ℂ)‖ ≤ K * ‖v‖ := by
  have hb : ∀ i : Fin m, ∃ K : ℝ, ∀ x ∈ Icc (-1 : ℝ) 1, ‖(Lf (Pi.single i 1)).eval (x : ℂ)‖ ≤ K := fun i =>
    isCompact_Icc.exists_bound_of_continuousOn
      ((((Lf (Pi.single i 1)).continuous).comp Complex.continuous_ofReal).continuousOn)
  choose K hK using hb
  refine ⟨∑ i, |K i|, Finset.sum_nonneg fun i _ => abs_nonneg _, fun v x hx => ?_⟩
  have e : v = ∑ i, v i • (Pi.single i 1 : Fin m → ℂ) := by
    funext j
    simp [Finset.sum_apply, Pi.single_apply]
  have e' : (Lf v).eval (x : ℂ) = ∑ i, v i * (Lf (Pi.single i 1)).eval (x : ℂ) := by
    conv_lhs => rw [e]
    simp [map_sum, eval_finset_sum]
  rw [e', Finset.sum_mul]
  refine (norm_sum_le _ _).trans (Finset.sum_le_sum fun i _ => ?_)
  rw [norm_mul, mul_comm]
  exact mul_le_mul ((hK i x hx).trans (le_abs_self _)) (norm_le_pi_norm v i) (norm_nonneg _) (abs_nonneg _)

theorem fieldOf_bound {N : Fin 2 → ℕ} (L : Fin 2 → ℝ) {m : ℕ} (Lf : (Fin m → ℂ) →ₗ[ℂ] ℂ[X]) : ∃ K : ℝ, 0 ≤ K ∧ ∀ (a a' : RModes N → Fin m → ℂ) (ε : ℝ),
    (∀ k, ‖a k - a' k‖ ≤ ε) → ∀ x ∈ Icc (-1 : ℝ) 1, ∀ y z, |fieldOf N L (fun k => Lf (a k)) x y z - fieldOf N L (fun k => Lf (a' k)) x y z| ≤ K * ε := by
  obtain ⟨K, hK, H⟩ := eval_bound Lf
  refine ⟨∑ k, |rweight N k| * K, Finset.sum_nonneg fun k _ => by positivity, fun a a' ε hε x hx y z => ?_⟩
  unfold fieldOf Spec.Field.field
  rw [← Complex.sub_re, ← Finset.sum_sub_distrib]
  refine (Complex.abs_re_le_norm _).trans ((norm_sum_le _ _).trans ?_)
  rw [Finset.sum_mul]
  refine Finset.sum_le_sum fun k _ => ?_
  rw [← sub_mul, ← mul_sub, ← eval_sub, ← map_sub, norm_mul, norm_mul]
  have h1 : ‖Complex.exp (Complex.I * (((scaledWaves N L 0 k : ℝ) : ℂ) * (y : ℂ) + ((scaledWaves N L 1 k : ℝ) : ℂ) * (z : ℂ)))‖ = 1 := by
    rw [mul_comm, ← Complex.ofReal_mul, ← Complex.ofReal_mul, ← Complex.ofReal_add, Complex.norm_exp_ofReal_mul_I]
  rw [h1, mul_one, Complex.norm_real, Real.norm_eq_abs, mul_assoc]
  exact mul_le_mul_of_nonneg_left ((H _ x hx).trans (mul_le_mul_of_nonneg_left (hε k) hK)) (abs_nonneg _)

variable {N M : Fin 2 → ℕ} {n : ℕ}

/-- The velocities represented by the coefficients differ by at most `ε` everywhere between the walls. -/
def FieldsWithin (q : Quad) (L : Fin 2 → ℝ) (ε : ℝ) (U U' : Vel (RModes N) (Fin n → ℂ) (Fin (n + 2) → ℂ)) : Prop :=
  ∀ x ∈ Icc (-1 : ℝ) 1, ∀ y z,
    |fieldU (chebWall q n) L U x y z - fieldU (chebWall q n) L U' x y z| ≤ ε ∧
    |fieldV (chebWall q n) L U x y z - fieldV (chebWall q n) L U' x y z| ≤ ε ∧
    |fieldW (chebWall q n) L U x y z - fieldW (chebWall q n) L U' x y z| ≤ ε

theorem within_fields (q : Quad) (L : Fin 2 → ℝ) : ∃ K : ℝ, 1 ≤ K ∧ ∀ (U : Vel (RModes N) (Fin n → ℂ) (Fin (n + 2) → ℂ)) (g) (U') (g') (ε : ℝ), 0 ≤ ε →
    Within ε U g U' g' → Within (K * ε) U g U' g' ∧ FieldsWithin q L (K * ε) U U' := by
  obtain ⟨KB, hKB, HB⟩ := fieldOf_bound (N := N) L (chebWall q n).fB
  obtain ⟨KD, hKD, HD⟩ := fieldOf_bound (N := N) L (chebWall q n).fD
  refine ⟨1 + KB + KD, by linarith, fun U g U' g' ε hε h => ?_⟩
  have hB : 0 ≤ KB * ε := by positivity
  have hD : 0 ≤ KD * ε := by positivity
  have e : (1 + KB + KD) * ε = ε + KB * ε + KD * ε := by ring
  rw [e]
  refine ⟨fun k => ?_, fun x hx y z => ?_⟩
  · obtain ⟨h1, h2, h3, h4⟩ := h k
    exact ⟨by linarith, by linarith, by linarith, by linarith⟩
  · have h1 := HB U.u U'.u ε (fun k => (h k).1) x hx y z
    have h2 := HD U.v U'.v ε (fun k => (h k).2.1) x hx y z
    have h3 := HD U.w U'.w ε (fun k => (h k).2.2.1) x hx y z
    exact ⟨h1.trans (by linarith), h2.trans (by linarith), h3.trans (by linarith)⟩

variable {q : Quad} {L : Fin 2 → ℝ} {hN : ∀ i, 0 < N i}

/-- The channel solvers on a mesh with `n + 4` points between the walls and `N 0 × N 1` wavenumbers (transforms with `M 0 × M 1` points), with any of the four
forms of convection. -/
structure ChebCtx (q : Quad) (n : ℕ) (M : Fin 2 → ℕ) (L : Fin 2 → ℝ) (hN : ∀ i, 0 < N i) (c : Ctx (RModes N) (Fin n → ℂ) (Fin (n + 2) → ℂ))
    (kind : ConvKind) : Prop where
  sides : ∀ i, L i ≠ 0
  mats : c.M = chebMats q n
  grid : c.G = waveGrid N L hN
  visc : 0 < c.nu
  conv : c.conv = convection kind (chebWall q n) (rspace N M) c.G

variable {c : Ctx (RModes N) (Fin n → ℂ) (Fin (n + 2) → ℂ)} {kind : ConvKind}

theorem ChebCtx.regular (S : ChebCtx q n M L hN c kind) : Regular c := cheb_regular q c S.mats

theorem ChebCtx.only_mean (S : ChebCtx q n M L hN c kind) (k : RModes N) : c.G.Ksq k = 0 ↔ k = c.G.zero := by
  rw [S.grid]; exact waveGrid_zero N L hN S.sides k

theorem ChebCtx.quad (S : ChebCtx q n M L hN c kind) : QuadConv c := quadConv_convection c (chebWall q n) (dft_linear (kernel (waves N) M) (rweight N)) kind S.conv

/-- **C99 (KMM).**  On an interval on which the equations have a solution, runs of KMM with small enough steps stay within `C dt²` of it, in every
coefficient and at every point between the walls.  A run starts with `U_hat`, `U_hat0` and `g` of the solution at time zero, and with `H_hat1` within
`c0 dt` of the convection then (`c0 = 0` in MKM.py:78-79, where `H_hat1` is that convection). -/
theorem C99_kmm (S : ChebCtx q n M L hN c kind) {T : ℝ} (hT : 0 ≤ T) {U : ℝ → Vel (RModes N) (Fin n → ℂ) (Fin (n + 2) → ℂ)}
    {g : ℝ → RModes N → Fin (n + 2) → ℂ} (hU : SemiDiscrete c T U g) {c0 : ℝ} (hc0 : 0 ≤ c0) : ∃ C H0 : ℝ, 0 < H0 ∧ ∀ dt, 0 < dt → dt ≤ H0 →
    ∀ la : LA (RModes N) (Fin n → ℂ) (Fin (n + 2) → ℂ), la.Solves c.nu dt c.G c.M →
    ∀ s0 : St (RModes N) (Fin n → ℂ) (Fin (n + 2) → ℂ), s0.U = U 0 → s0.U0 = U 0 → s0.g = g 0 →
    (∀ k, ‖s0.H1.c0 k - (c.conv (U 0) (g 0)).c0 k‖ ≤ c0 * dt ∧ ‖s0.H1.c1 k - (c.conv (U 0) (g 0)).c1 k‖ ≤ c0 * dt ∧
      ‖s0.H1.c2 k - (c.conv (U 0) (g 0)).c2 k‖ ≤ c0 * dt) →
    ∀ m : ℕ, m * dt ≤ T → let s := (tick { c with dt := dt } la id)^[m] s0
      Within (C * dt ^ 2) s.U s.g (U (m * dt)) (g (m * dt)) ∧ FieldsWithin q L (C * dt ^ 2) s.U (U (m * dt)) := by
  obtain ⟨C, H0, hH0, H⟩ := kmm_converges S.regular S.only_mean S.quad S.visc.ne' hT hU hc0
  obtain ⟨K, hK, HK⟩ := within_fields (N := N) (n := n) q L
  refine ⟨K * |C|, H0, hH0, fun dt hdt hdt' la hla s0 e1 e2 e3 e4 m hm => ?_⟩
  intro s
  have h := H dt hdt hdt' la hla s0 e1 e2 e3 e4 m hm
  have hC : C * dt ^ 2 ≤ |C| * dt ^ 2 := mul_le_mul_of_nonneg_right (le_abs_self C) (by positivity)
  rw [mul_assoc]
  refine HK _ _ _ _ _ (by positivity) fun k => ?_
  obtain ⟨h1, h2, h3, h4⟩ := h k
  exact ⟨h1.trans hC, h2.trans hC, h3.trans hC, h4.trans hC⟩

/-- **C99 (KMMRK3).**  The same for KMMRK3, with nothing assumed about the stored arrays: the scheme with Crank-Nicolson in every substep is of second order. -/
theorem C99_kmmrk3 (S : ChebCtx q n M L hN c kind) {T : ℝ} (hT : 0 ≤ T) {U : ℝ → Vel (RModes N) (Fin n → ℂ) (Fin (n + 2) → ℂ)}
    {g : ℝ → RModes N → Fin (n + 2) → ℂ} (hU : SemiDiscrete c T U g) : ∃ C H0 : ℝ, 0 < H0 ∧ ∀ dt, 0 < dt → dt ≤ H0 →
    ∀ la : Fin 3 → LA (RModes N) (Fin n → ℂ) (Fin (n + 2) → ℂ), (∀ rk, (la rk).Solves3 c.nu dt (rkA rk + rkB rk) c.G c.M) →
    ∀ s0 : St3 (RModes N) (Fin n → ℂ) (Fin (n + 2) → ℂ), s0.U = U 0 → s0.g = g 0 →
    ∀ m : ℕ, m * dt ≤ T → let s := (tick3 { c with dt := dt } la id)^[m] s0
      Within (C * dt ^ 2) s.U s.g (U (m * dt)) (g (m * dt)) ∧ FieldsWithin q L (C * dt ^ 2) s.U (U (m * dt)) := by
  obtain ⟨C, H0, hH0, H⟩ := kmmrk3_converges S.regular S.only_mean S.quad S.visc.ne' hT hU
  obtain ⟨K, hK, HK⟩ := within_fields (N := N) (n := n) q L
  refine ⟨K * |C|, H0, hH0, fun dt hdt hdt' la hla s0 e1 e3 m hm => ?_⟩
  intro s
  have h := H dt hdt hdt' la hla s0 e1 e3 m hm
  have hC : C * dt ^ 2 ≤ |C| * dt ^ 2 := mul_le_mul_of_nonneg_right (le_abs_self C) (by positivity)
  rw [mul_assoc]
  refine HK _ _ _ _ _ (by positivity) fun k => ?_
  obtain ⟨h1, h2, h3, h4⟩ := h k
  exact ⟨h1.trans hC, h2.trans hC, h3.trans hC, h4.trans hC⟩

/-- **C99 (the solution).**  From every divergence free velocity the equations have a solution on some interval, and only one. -/
theorem C99_exists (S : ChebCtx q n M L hN c kind) {U0 : Vel (RModes N) (Fin n → ℂ) (Fin (n + 2) → ℂ)} {g0 : RModes N → Fin (n + 2) → ℂ}
    (h0 : Solenoidal c U0 g0) : (∃ T : ℝ, 0 < T ∧ ∃ U g, U 0 = U0 ∧ g 0 = g0 ∧ SemiDiscrete c T U g) ∧
    ∀ (T : ℝ) (U V : ℝ → Vel (RModes N) (Fin n → ℂ) (Fin (n + 2) → ℂ)) (g p : ℝ → RModes N → Fin (n + 2) → ℂ), SemiDiscrete c T U g →
      SemiDiscrete c T V p → U 0 = U0 → V 0 = U0 → g 0 = g0 → p 0 = g0 → ∀ t ∈ Icc 0 T, U t = V t ∧ g t = p t :=
  ⟨semiDiscrete_exists c S.regular S.only_mean S.quad h0, fun _ _ _ _ _ hU hV e1 e2 e3 e4 =>
    semiDiscrete_unique c S.regular S.only_mean S.quad hU hV (e1.trans e2.symm) (e3.trans e4.symm)⟩

/-- A flow along the walls `v = ∂ψ/∂z`, `w = -∂ψ/∂y` together with a mean flow. -/
def streamFlow {κ D : Type*} [DecidableEq κ] [AddCommGroup D] [Module ℂ D] {n : ℕ} (G : Grid κ) (P : κ → D) (v w : D) : Vel κ (Fin n → ℂ) D :=
  ⟨0, Function.update (fun k => (Complex.I * G.K2 k) • P k) G.zero v, Function.update (fun k => -((Complex.I * G.K1 k) • P k)) G.zero w⟩

theorem streamFlow_solenoidal {κ : Type*} [DecidableEq κ] {n e : ℕ} (c : Ctx κ (Fin n → ℂ) (Fin e → ℂ)) (hz : ∀ k, c.G.Ksq k = 0 ↔ k = c.G.zero)
    (P : κ → Fin e → ℂ) (v w : Fin e → ℂ) : Solenoidal c (streamFlow c.G P v w) (vorticity c.G (streamFlow (n := n) c.G P v w)) := by
  refine ⟨fun k => ?_, fun k _ => rfl, rfl⟩
  have e : (Complex.I * c.G.K1 k) • (streamFlow (n := n) c.G P v w).v k + (Complex.I * c.G.K2 k) • (streamFlow (n := n) c.G P v w).w k = 0 := by
    by_cases hk : k = c.G.zero
    · have h0 : c.G.K1 k * c.G.K1 k + c.G.K2 k * c.G.K2 k = 0 := (hz k).2 hk
      have h1 : c.G.K1 k = 0 := by nlinarith [mul_self_nonneg (c.G.K1 k), mul_self_nonneg (c.G.K2 k)]
      have h2 : c.G.K2 k = 0 := by nlinarith [mul_self_nonneg (c.G.K1 k), mul_self_nonneg (c.G.K2 k)]
      rw [h1, h2]; simp
    · simp only [streamFlow, Function.update_of_ne hk]
      module
  rw [Continuity, e]
  simp [streamFlow]

/-- Runs of both solvers which the theorems are about: the three-dimensional flow with any stream function and any mean flow, pressed through a channel with
sides `1` and `2`, on a mesh with `7 × 8 × 8` points and the 3/2-rule. -/
example (P : RModes ![8, 8] → Fin 5 → ℂ) (v w : Fin 5 → ℂ) : ∃ (c : Ctx (RModes ![8, 8]) (Fin 3 → ℂ) (Fin 5 → ℂ)) (T : ℝ) (U : ℝ → _) (g : ℝ → _),
    0 < T ∧ ChebCtx .GL 3 ![12, 12] ![1, 2] (fun i => by fin_cases i <;> norm_num) c .vortex ∧ SemiDiscrete c T U g ∧ U 0 = streamFlow c.G P v w ∧
    c.Sk = 1 ∧ (∀ dt, 0 < dt → ∃ la : LA (RModes ![8, 8]) (Fin 3 → ℂ) (Fin 5 → ℂ), la.Solves c.nu dt c.G c.M) ∧
    ∀ dt, 0 < dt → ∃ la : Fin 3 → LA (RModes ![8, 8]) (Fin 3 → ℂ) (Fin 5 → ℂ), ∀ rk, (la rk).Solves3 c.nu dt (rkA rk + rkB rk) c.G c.M := by
  have hN : ∀ i : Fin 2, 0 < (![8, 8] : Fin 2 → ℕ) i := fun i => by fin_cases i <;> norm_num
  let c : Ctx (RModes ![8, 8]) (Fin 3 → ℂ) (Fin 5 → ℂ) :=
    { nu := 1 / 100, dt := 1 / 10, G := waveGrid ![8, 8] ![1, 2] hN, M := chebMats .GL 3, mask := none,
      conv := convection .vortex (chebWall .GL 3) (rspace ![8, 8] ![12, 12]) (waveGrid ![8, 8] ![1, 2] hN), Sk := 1 }
  have S : ChebCtx .GL 3 ![12, 12] ![1, 2] hN c .vortex := ⟨fun i => by fin_cases i <;> norm_num, rfl, rfl, by norm_num [c], rfl⟩
  obtain ⟨T, hT, U, g, e1, -, h⟩ := (C99_exists S (streamFlow_solenoidal c S.only_mean P v w)).1
  refine ⟨c, T, U, g, hT, S, h, e1, rfl, fun dt hdt => ?_, fun dt hdt => ?_⟩
  · obtain ⟨la, hla, -⟩ := Galerkin.C75_kmm .GL 3 c.G c.nu dt S.visc hdt
    exact ⟨la, hla⟩
  · choose la hla _ using fun rk => Galerkin.C75_kmmrk3 .GL 3 c.G c.nu dt S.visc hdt rk
    exact ⟨la, hla⟩

end cheb

end SpectralDNS.Channel

/-! ### The coupled solvers -/

namespace SpectralDNS.Coupled

open Channel Periodic Set

variable {N M : Fin 2 → ℕ} {n : ℕ} {q : Quad} {L : Fin 2 → ℝ} {hN : ∀ i, 0 < N i} {c : Ctx (RModes N) (Fin (n + 2) → ℂ) (Fin (n + 4) → ℂ) (Fin (n + 4) → ℂ)}
  {e : Channel.Ctx (RModes N) (Fin n → ℂ) (Fin (n + 2) → ℂ)} {kind : ConvKind}

theorem Setup.cheb (S : Setup q n M L hN c e kind) : ChebCtx q n M L hN e kind :=
  ⟨S.sides, S.matsK, S.gridK, by rw [S.nu]; exact S.nu_pos, S.convK⟩

theorem Setup.withDt (S : Setup q n M L hN c e kind) {dt : ℝ} (hdt : 0 < dt) : Setup q n M L hN { c with dt := dt } { e with dt := dt } kind :=
  { S with dt := rfl, dt_pos := hdt }

/-- The velocity of a coupled solver differs from that of `V` by at most `ε` everywhere between the walls. -/
def FieldsWithin (q : Quad) (L : Fin 2 → ℝ) (ε : ℝ) (U : Vel (RModes N) (Fin (n + 2) → ℂ)) (V : Channel.Vel (RModes N) (Fin n → ℂ) (Fin (n + 2) → ℂ)) : Prop :=
  ∀ x ∈ Icc (-1 : ℝ) 1, ∀ y z,
    |fieldU (chebWall q n) L (asVel U) x y z - fieldU (Channel.chebWall q n) L V x y z| ≤ ε ∧
    |fieldV (chebWall q n) L (asVel U) x y z - fieldV (Channel.chebWall q n) L V x y z| ≤ ε ∧
    |fieldW (chebWall q n) L (asVel U) x y z - fieldW (Channel.chebWall q n) L V x y z| ≤ ε

/-- **C99 (Coupled).**  The velocity computed by Coupled stays within `C dt²` of the same solution, with convection in the standard or vortex form. -/
theorem C99_coupled (S : Setup q n M L hN c e kind) {T : ℝ} (hT : 0 ≤ T) {U : ℝ → Channel.Vel (RModes N) (Fin n → ℂ) (Fin (n + 2) → ℂ)}
    {g : ℝ → RModes N → Fin (n + 2) → ℂ} (hU : SemiDiscrete e T U g) (hg : g 0 e.G.zero = 0) : ∃ C H0 : ℝ, 0 < H0 ∧ ∀ dt, 0 < dt → dt ≤ H0 →
    ∀ solve : Vec (RModes N) (Fin (n + 2) → ℂ) → Vel (RModes N) (Fin (n + 2) → ℂ) × (RModes N → Fin (n + 4) → ℂ),
    Solves { c with dt := dt } (2 / c.nu / dt) (2 / c.nu) (rest n) (pinFirst n) (pinLast n) solve →
    ∀ s0 : St (RModes N) (Fin (n + 2) → ℂ) (Fin (n + 4) → ℂ), Same s0.U (U 0) → s0.H1 = c.conv s0.U →
    ∀ m : ℕ, m * dt ≤ T → FieldsWithin q L (C * dt ^ 2) ((tick { c with dt := dt } solve id)^[m] s0).U (U (m * dt)) := by
  obtain ⟨C, H0, hH0, H⟩ := C99_kmm S.cheb hT hU le_rfl
  refine ⟨C, H0, hH0, fun dt hdt hdt' solve hs s0 h0 h1 m hm => ?_⟩
  rw [S.conv s0.U (U 0) (g 0) h0 (hU.sol 0 ⟨le_rfl, hT⟩) hg] at h1
  obtain ⟨la, hla, -⟩ := Galerkin.C75_kmm q n e.G e.nu dt S.cheb.visc hdt
  rw [← S.matsK] at hla
  let t0 : Channel.St (RModes N) (Fin n → ℂ) (Fin (n + 2) → ℂ) := ⟨U 0, g 0, s0.H1, s0.H1, s0.H1, U 0⟩
  have hf := (H dt hdt hdt' la hla t0 rfl rfl rfl (fun k => by simp [t0, h1]) m hm).2
  obtain ⟨-, e1, e2, e3⟩ := C98_kmm (S.withDt hdt) solve hs la hla id id (fun _ _ h => h) (fun _ => ⟨rfl, fun _ _ => ⟨rfl, rfl⟩⟩) s0 t0 h0
    (hU.sol 0 ⟨le_rfl, hT⟩) hg rfl rfl m
  intro x hx y z
  rw [e1, e2, e3]
  exact hf x hx y z

/-- **C99 (CoupledRK3).** -/
theorem C99_coupledrk3 (S : Setup q n M L hN c e kind) {T : ℝ} (hT : 0 ≤ T) {U : ℝ → Channel.Vel (RModes N) (Fin n → ℂ) (Fin (n + 2) → ℂ)}
    {g : ℝ → RModes N → Fin (n + 2) → ℂ} (hU : SemiDiscrete e T U g) (hg : g 0 e.G.zero = 0) : ∃ C H0 : ℝ, 0 < H0 ∧ ∀ dt, 0 < dt → dt ≤ H0 →
    ∀ solve : Fin 3 → Vec (RModes N) (Fin (n + 2) → ℂ) → Vel (RModes N) (Fin (n + 2) → ℂ) × (RModes N → Fin (n + 4) → ℂ),
    (∀ rk, Solves { c with dt := dt } (2 / c.nu / dt / rkG rk) (2 / c.nu / rkG rk) (rest n) (pinFirst n) (pinLast n) (solve rk)) →
    ∀ s0 : St3 (RModes N) (Fin (n + 2) → ℂ) (Fin (n + 4) → ℂ), Same s0.U (U 0) →
    ∀ m : ℕ, m * dt ≤ T → FieldsWithin q L (C * dt ^ 2) ((tick3 { c with dt := dt } solve id)^[m] s0).U (U (m * dt)) := by
  obtain ⟨C, H0, hH0, H⟩ := C99_kmmrk3 S.cheb hT hU
  refine ⟨C, H0, hH0, fun dt hdt hdt' solve hs s0 h0 m hm => ?_⟩
  choose la hla _ using fun rk => Galerkin.C75_kmmrk3 q n e.G e.nu dt S.cheb.visc hdt rk
  rw [← S.matsK] at hla
  let t0 : Channel.St3 (RModes N) (Fin n → ℂ) (Fin (n + 2) → ℂ) := ⟨U 0, g 0, ⟨0, 0, 0⟩, 0, 0, 0, 0⟩
  have hf := (H dt hdt hdt' la hla t0 rfl rfl m hm).2
  obtain ⟨-, e1, e2, e3⟩ := C98_kmmrk3 (S.withDt hdt) solve hs la hla id id (fun _ _ h => h) (fun _ => ⟨rfl, fun _ _ => ⟨rfl, rfl⟩⟩) s0 t0 h0
    (hU.sol 0 ⟨le_rfl, hT⟩) hg m
  intro x hx y z
  rw [e1, e2, e3]
  exact hf x hx y z

end SpectralDNS.Coupled

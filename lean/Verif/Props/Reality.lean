import Verif.Lemmas.Convection
import Verif.Spec.Reality
import Verif.Props.VV

/-!
# C15, C16: Hermitian symmetry and masked modes
-/

namespace SpectralDNS.Periodic

open Complex

variable {ι X : Type*} {d : ℕ}

/-- What is assumed of the modes: grid values are real, so coefficients computed by `forward` have Hermitian symmetry
(required only at modes with odd wavenumber); the wavenumbers are odd, `K(-k) = -K(k)`, except at modes removed by the mask, where each component may instead keep its sign
(the Nyquist entries `-N/2` of even grids, which are their own partner). -/
structure RealModes (R : ι → ι → Prop) (c : Ctx d ι X) : Prop where
  forward : ∀ f k k', R k k' → (∀ i, c.K i k' = -c.K i k) → c.Tp.forward f k' = (starRingEnd ℂ) (c.Tp.forward f k)
  sign : ∀ k k', R k k' → ∀ i, c.K i k' = -c.K i k ∨ c.K i k' = c.K i k
  odd : ∀ k k', R k k' → (∀ i, c.K i k' = -c.K i k) ∨ ∃ m, c.mask = some m ∧ m k = false ∧ m k' = false

/-- Hermitian at the modes where the wavenumber is odd. -/
def HermOdd (R : ι → ι → Prop) (K : Fin d → ι → ℝ) (u : SArr d ι) : Prop :=
  ∀ k k', R k k' → (∀ i, K i k' = -K i k) → ∀ i, u i k' = (starRingEnd ℂ) (u i k)

theorem K2_sign {K : Fin d → ι → ℝ} {k k' : ι} (h : ∀ i, K i k' = -K i k ∨ K i k' = K i k) : K2 K k' = K2 K k := by
  refine Finset.sum_congr rfl fun i _ => ?_
  rcases h i with h | h
  · rw [h, neg_mul_neg]
  · rw [h]

theorem KoK2_odd {K : Fin d → ι → ℝ} {k k' : ι} (h : ∀ i, K i k' = -K i k) (i : Fin d) : K_over_K2 K i k' = -K_over_K2 K i k := by
  unfold K_over_K2
  rw [K2_sign fun i => Or.inl (h i), h i, neg_div]

theorem mask_zero {m : ι → Bool} {k : ι} (h : m k = false) (r : SArr d ι) (i : Fin d) : maskNyquist (some m) r i k = 0 := by
  simp [maskNyquist, h]

theorem mask_herm {R : ι → ι → Prop} {c : Ctx d ι X} (H : RealModes R c) (r : SArr d ι) (hr : HermOdd R c.K r) (hsym : ∀ m,
    c.mask = some m → ∀ k k', R k k' → m k' = m k) : Spec.Hermitian R (maskNyquist c.mask r) := by
  intro k k' hR i
  rcases H.odd k k' hR with h | ⟨m, hm, h1, h2⟩
  · have := hr k k' hR h i
    rcases hm : c.mask with _ | m
    · exact this
    · simp only [maskNyquist, hsym m hm k k' hR, map_mul, this]
      split <;> simp
  · rw [hm, mask_zero h1, mask_zero h2, map_zero]

theorem rhsNS_herm {R : ι → ι → Prop} {c : Ctx d ι X} (H : RealModes R c)
    (hsym : ∀ m, c.mask = some m → ∀ k k', R k k' → m k' = m k) (conv : SArr d ι → SArr d ι → SArr d ι) (rhs u : SArr d ι)
    (hconv : HermOdd R c.K (conv rhs u)) (hu : Spec.Hermitian R u) (hS : Spec.Hermitian R c.Source) :
    Spec.Hermitian R (rhsNS c conv rhs u) := by
  intro k k' hR i
  have hN := mask_herm H (conv rhs u) hconv hsym
  have h2 := K2_sign (H.sign k k' hR)
  simp only [rhsNS, ComputeRHS, add_pressure_diffusion, map_add, map_sub, map_mul, conj_ofReal, map_sum, h2, hu k k' hR i,
    hS k k' hR i, hN k k' hR]
  congr 3
  rcases H.odd k k' hR with h | ⟨m, hm, h1, h2⟩
  · simp only [h i, KoK2_odd h, ofReal_neg, mul_neg, Finset.sum_neg_distrib, neg_mul, neg_neg]
  · simp [hm, maskNyquist, h1]

theorem forward_hermOdd {R : ι → ι → Prop} {c : Ctx d ι X} (H : RealModes R c) (f : PArr d X) : HermOdd R c.K (c.Tp.vforward f) :=
  fun k k' hR h i => H.forward (f i) k k' hR h

/-- All four convective terms have the symmetry, for every state. -/
theorem conv_hermOdd {R : ι → ι → Prop} {c : Ctx 3 ι X} (H : RealModes R c) (name : String) (conv)
    (hc : getConvection name = some conv) (s : Scratch 3 ι X) (rhs u : SArr 3 ι) : HermOdd R c.K (conv s rhs u c.Tp c.K) := by
  have hA : ∀ k k', R k k' → (∀ i, c.K i k' = -c.K i k) → ∀ i, Spec.advection c.Tp.forward c.Tp.backward c.K u i k' =
      (starRingEnd ℂ) (Spec.advection c.Tp.forward c.Tp.backward c.K u i k) := fun k k' hR h i => H.forward _ k k' hR h
  have hD : HermOdd R c.K (Spec.divergenceForm c.Tp.forward c.Tp.backward c.K u) := by
    intro k k' hR h i
    simp only [Spec.divergenceForm, map_sum, map_mul, conj_I, conj_ofReal, h]
    refine Finset.sum_congr rfl fun j _ => ?_
    rw [H.forward _ k k' hR h]
    push_cast
    ring
  have hL : ∀ k k', R k k' → (∀ i, c.K i k' = -c.K i k) → ∀ i, Spec.lamb c.Tp.forward c.Tp.backward c.K u i k' =
      (starRingEnd ℂ) (Spec.lamb c.Tp.forward c.Tp.backward c.K u i k) := fun k k' hR h i => H.forward _ k k' hR h
  unfold getConvection at hc
  intro k k' hR h i
  by_cases h1 : name = "Standard"
  · rw [if_pos h1] at hc
    obtain rfl := Option.some.inj hc
    rw [convStandard_eq, convStandard_eq, hA k k' hR h i, map_neg]
  rw [if_neg h1] at hc
  by_cases h2 : name = "Divergence"
  · rw [if_pos h2] at hc
    obtain rfl := Option.some.inj hc
    rw [convDivergence_eq, convDivergence_eq, hD k k' hR h i, map_neg]
  rw [if_neg h2] at hc
  by_cases h3 : name = "Skewed"
  · rw [if_pos h3] at hc
    obtain rfl := Option.some.inj hc
    rw [convSkewed_eq, convSkewed_eq, hA k k' hR h i, hD k k' hR h i, map_div₀, map_neg, map_add, map_ofNat]
  rw [if_neg h3] at hc
  by_cases h4 : name = "Vortex"
  · rw [if_pos h4] at hc
    obtain rfl := Option.some.inj hc
    rw [convVortex_eq, hL k k' hR h i]
  · rw [if_neg h4] at hc
    exact absurd hc (by simp)

/-! ## C15 -/

/-- C15, NS.  Hermitian symmetry is preserved by every convection form and every integrator, for any number of steps. -/
theorem C15_NS {R : ι → ι → Prop} (c : Ctx 3 ι X) (H : RealModes R c)
    (hsym : ∀ m, c.mask = some m → ∀ k k', R k k' → m k' = m k) (hS : Spec.Hermitian R c.Source)
    (name : String) (conv) (hc : getConvection name = some conv) (s : Scratch 3 ι X)
    (est : SArr 3 ι → SArr 3 ι → SArr 3 ι → PyF) (fuel : ℕ) (m : Method) (ds : List ℝ) (tstep : ℕ) (rhs u : SArr 3 ι)
    (hu : Spec.Hermitian R u) (c' : Closure (SArr 3 ι))
    (h : runSteps (rhsNS c fun r u => conv s r u c.Tp c.K) est fuel m tstep ds (getintegrator rhs u) = some c') :
    Spec.Hermitian R c'.u0 :=
  run_mem _ (Spec.hermitian (d := 3) R) (Spec.hermitian (d := 3) R)
    (fun _ hu _ hw => Submodule.add_mem _ hu hw)
    (fun r u hu => rhsNS_herm H hsym _ r u (conv_hermOdd H name conv hc s r u) hu hS)
    est fuel m ds tstep rhs u hu (fun _ => Or.inr hu) c' h

/-- C15, NS2D. -/
theorem C15_NS2D {R : ι → ι → Prop} (c : Ctx 2 ι X) (H : RealModes R c)
    (hsym : ∀ m, c.mask = some m → ∀ k k', R k k' → m k' = m k) (hS : Spec.Hermitian R c.Source) (w0 : ι → ℂ)
    (est : SArr 2 ι → SArr 2 ι → SArr 2 ι → PyF) (fuel : ℕ) (m : Method) (ds : List ℝ) (tstep : ℕ) (rhs u : SArr 2 ι)
    (hu : Spec.Hermitian R u) (c' : Closure (SArr 2 ι))
    (h : runSteps (rhsNS c fun r u => conv2DVortex w0 r u c.Tp c.K) est fuel m tstep ds (getintegrator rhs u) = some c') :
    Spec.Hermitian R c'.u0 := by
  refine run_mem _ (Spec.hermitian (d := 2) R) (Spec.hermitian (d := 2) R)
    (fun _ hu _ hw => Submodule.add_mem _ hu hw)
    (fun r u hu => rhsNS_herm H hsym _ r u ?_ hu hS) est fuel m ds tstep rhs u hu (fun _ => Or.inr hu) c' h
  intro k k' hR h i
  fin_cases i
  · simp only [Fin.zero_eta, conv2DVortex, Function.update, show (0 : Fin 2) ≠ 1 by decide, dif_neg, not_false_iff, dif_pos]
    exact H.forward _ k k' hR h
  · simp only [Fin.mk_one, conv2DVortex, Function.update, dif_pos]
    exact H.forward _ k k' hR h

/-- C15, VV. -/
theorem C15_VV {R : ι → ι → Prop} (c : Ctx 3 ι X) (H : RealModes R c)
    (hsym : ∀ m, c.mask = some m → ∀ k k', R k k' → m k' = m k) (hS : Spec.Hermitian R c.Source) (s : Scratch 3 ι X)
    (est : SArr 3 ι → SArr 3 ι → SArr 3 ι → PyF) (fuel : ℕ) (m : Method) (ds : List ℝ) (tstep : ℕ) (rhs w : SArr 3 ι)
    (hw : Spec.Hermitian R w) (c' : Closure (SArr 3 ι))
    (h : runSteps (rhsVV c s) est fuel m tstep ds (getintegrator rhs w) = some c') : Spec.Hermitian R c'.u0 := by
  refine run_mem _ (Spec.hermitian (d := 3) R) (Spec.hermitian (d := 3) R)
    (fun _ hu _ hw => Submodule.add_mem _ hu hw) (fun r u hu => ?_) est fuel m ds tstep rhs w hw (fun _ => Or.inr hw) c' h
  have hN := mask_herm H (convVV s r u c.Tp c.K (K_over_K2 c.K)) (fun k k' hR h i => by
    simp only [convVV, cross2_3d_eq, Spec.curl, Spec.cross, map_mul, map_sub, conj_I, conj_ofReal, h]
    have e := fun j => (forward_hermOdd H (cross1_3d s.real1 (compute_velocity s.cplx0 u c.Tp (K_over_K2 c.K))
      (c.Tp.vbackward u))) k k' hR h j
    simp only [Cross]
    rw [e, e]
    push_cast
    ring) hsym
  intro k k' hR i
  have hu' := hu k k' hR i
  simp only [rhsVV, add_linear, map_add, map_sub, map_mul, conj_ofReal, K2_sign (H.sign k k' hR), hu', hS k k' hR i,
    hN k k' hR i]

/-- Hermitian pairs of fields. -/
noncomputable def hermitian2 (R : ι → ι → Prop) : Submodule ℝ (SArr 3 ι × SArr 3 ι) := (Spec.hermitian R).prod (Spec.hermitian R)

/-- C15, MHD. -/
theorem C15_MHD {R : ι → ι → Prop} (c : Ctx 3 ι X) (eta : ℝ) (H : RealModes R c)
    (hsym : ∀ m, c.mask = some m → ∀ k k', R k k' → m k' = m k)
    (est : SArr 3 ι × SArr 3 ι → SArr 3 ι × SArr 3 ι → SArr 3 ι × SArr 3 ι → PyF) (fuel : ℕ) (m : Method) (ds : List ℝ)
    (tstep : ℕ) (rhs ub : SArr 3 ι × SArr 3 ι) (hu : Spec.Hermitian R ub.1) (hb : Spec.Hermitian R ub.2)
    (c' : Closure (SArr 3 ι × SArr 3 ι))
    (h : runSteps (rhsMHD c eta fun _ ub => convMHD ub c.Tp c.K) est fuel m tstep ds (getintegrator rhs ub) = some c') :
    Spec.Hermitian R c'.u0.1 ∧ Spec.Hermitian R c'.u0.2 := by
  refine run_mem _ (hermitian2 R) (hermitian2 R : Set (SArr 3 ι × SArr 3 ι))
    (fun _ hu _ hw => (hermitian2 R).add_mem hu hw) (fun r ub hub => ?_) est fuel m ds tstep rhs ub ⟨hu, hb⟩
    (fun _ => Or.inr ⟨hu, hb⟩) c' h
  obtain ⟨hu, hb⟩ := hub
  have e2 : (2.0 : ℂ) = 2 := by norm_num
  have hc : HermOdd R c.K (convMHD ub c.Tp c.K).1 ∧ HermOdd R c.K (convMHD ub c.Tp c.K).2 := by
    constructor <;> intro k k' hR h i <;>
      simp only [convMHD, divergenceConvection, set_Elsasser, e2, map_mul, map_add, map_sub, map_neg, map_div₀, map_ofNat, conj_I,
        conj_ofReal, h, H.forward _ k k' hR h] <;> push_cast <;> ring
  have hN1 := mask_herm H _ hc.1 hsym
  have hN2 := mask_herm H _ hc.2 hsym
  refine ⟨fun k k' hR i => ?_, fun k k' hR i => ?_⟩
  · have h2 := K2_sign (H.sign k k' hR)
    have hu' := hu k k' hR i
    simp only [rhsMHD, add_pressure_diffusionMHD, map_sub, map_mul, conj_ofReal, map_sum, h2, hu', hN1 k k' hR]
    congr 2
    rcases H.odd k k' hR with h | ⟨m, hm, h1, h2⟩
    · simp only [h i, KoK2_odd h, ofReal_neg, mul_neg, Finset.sum_neg_distrib, neg_mul, neg_neg]
    · simp [hm, maskNyquist, h1]
  · have hb' := hb k k' hR i
    simp only [rhsMHD, add_pressure_diffusionMHD, map_sub, map_mul, conj_ofReal, K2_sign (H.sign k k' hR), hb', hN2 k k' hR]

/-! ## C16 -/

/-- C16.  At a masked mode the right-hand sides are purely viscous (plus source), for every convective term. -/
theorem C16_rhs_masked (c : Ctx d ι X) (conv : SArr d ι → SArr d ι → SArr d ι) (rhs u : SArr d ι) (m : ι → Bool)
    (hm : c.mask = some m) (k : ι) (hk : m k = false) (i : Fin d) :
    rhsNS c conv rhs u i k = -(c.nu * Spec.normSq (Spec.at' c.K k) : ℝ) * u i k + c.Source i k := by
  simp only [rhsNS, ComputeRHS, add_pressure_diffusion, hm, mask_zero hk, K2_eq]
  simp

/-- C16.  A mode kept by the mask gets the unmasked convective term. -/
theorem C16_unmasked_unchanged (m : ι → Bool) (r : SArr d ι) (k : ι) (hk : m k = true) (i : Fin d) :
    maskNyquist (some m) r i k = r i k := by simp [maskNyquist, hk]

/-- C16, NS (and NS2D).  A masked mode that is zero initially and in the source is zero for ever. -/
theorem C16_NS (c : Ctx d ι X) (conv : SArr d ι → SArr d ι → SArr d ι) (mk : ι → Bool) (hm : c.mask = some mk)
    (hS : ∀ k, mk k = false → ∀ i, c.Source i k = 0)
    (est : SArr d ι → SArr d ι → SArr d ι → PyF) (fuel : ℕ) (m : Method) (ds : List ℝ) (tstep : ℕ) (rhs u : SArr d ι)
    (hu : ∀ k, mk k = false → ∀ i, u i k = 0) (c' : Closure (SArr d ι))
    (h : runSteps (rhsNS c conv) est fuel m tstep ds (getintegrator rhs u) = some c') :
    ∀ k, mk k = false → ∀ i, c'.u0 i k = 0 := by
  refine run_mem _ (Spec.vanishing d fun k => mk k = false) (Spec.vanishing d fun k => mk k = false : Set (SArr d ι))
    (fun _ hu _ hw => Submodule.add_mem _ hu hw) (fun r u hu k hk i => ?_) est fuel m ds tstep rhs u hu (fun _ => Or.inr hu) c' h
  have h1 : u i k = 0 := hu k hk i
  rw [C16_rhs_masked c conv r u mk hm k hk i, h1, hS k hk i]
  simp

/-- C16, VV. -/
theorem C16_VV (c : Ctx 3 ι X) (s : Scratch 3 ι X) (mk : ι → Bool) (hm : c.mask = some mk)
    (hS : ∀ k, mk k = false → ∀ i, c.Source i k = 0)
    (est : SArr 3 ι → SArr 3 ι → SArr 3 ι → PyF) (fuel : ℕ) (m : Method) (ds : List ℝ) (tstep : ℕ) (rhs w : SArr 3 ι)
    (hu : ∀ k, mk k = false → ∀ i, w i k = 0) (c' : Closure (SArr 3 ι))
    (h : runSteps (rhsVV c s) est fuel m tstep ds (getintegrator rhs w) = some c') :
    ∀ k, mk k = false → ∀ i, c'.u0 i k = 0 := by
  refine run_mem _ (Spec.vanishing 3 fun k => mk k = false) (Spec.vanishing 3 fun k => mk k = false : Set (SArr 3 ι))
    (fun _ hu _ hw => Submodule.add_mem _ hu hw) (fun r u hu k hk i => ?_) est fuel m ds tstep rhs w hu (fun _ => Or.inr hu) c' h
  have h1 : u i k = 0 := hu k hk i
  simp [rhsVV, add_linear, hm, mask_zero hk, h1, hS k hk i]

/-- C16, MHD. -/
theorem C16_MHD (c : Ctx 3 ι X) (eta : ℝ) (conv : SArr 3 ι × SArr 3 ι → SArr 3 ι × SArr 3 ι → SArr 3 ι × SArr 3 ι)
    (mk : ι → Bool) (hm : c.mask = some mk)
    (est : SArr 3 ι × SArr 3 ι → SArr 3 ι × SArr 3 ι → SArr 3 ι × SArr 3 ι → PyF) (fuel : ℕ) (m : Method) (ds : List ℝ)
    (tstep : ℕ) (rhs ub : SArr 3 ι × SArr 3 ι) (hu : ∀ k, mk k = false → ∀ i, ub.1 i k = 0 ∧ ub.2 i k = 0)
    (c' : Closure (SArr 3 ι × SArr 3 ι))
    (h : runSteps (rhsMHD c eta conv) est fuel m tstep ds (getintegrator rhs ub) = some c') :
    ∀ k, mk k = false → ∀ i, c'.u0.1 i k = 0 ∧ c'.u0.2 i k = 0 := by
  let W : Submodule ℝ (SArr 3 ι × SArr 3 ι) :=
    (Spec.vanishing 3 fun k => mk k = false).prod (Spec.vanishing 3 fun k => mk k = false)
  have hub : ub ∈ W := ⟨fun k hk i => (hu k hk i).1, fun k hk i => (hu k hk i).2⟩
  have := run_mem (rhsMHD c eta conv) W (W : Set (SArr 3 ι × SArr 3 ι)) (fun _ hu _ hw => W.add_mem hu hw)
    (fun r ub hub => ⟨fun k hk i => by
        have h1 : ub.1 i k = 0 := hub.1 k hk i
        simp [rhsMHD, add_pressure_diffusionMHD, hm, mask_zero hk, h1],
      fun k hk i => by
        have h1 : ub.2 i k = 0 := hub.2 k hk i
        simp [rhsMHD, add_pressure_diffusionMHD, hm, mask_zero hk, h1]⟩)
    est fuel m ds tstep rhs ub hub (fun _ => Or.inr hub) c' h
  exact fun k hk i => ⟨this.1 k hk i, this.2 k hk i⟩

/-- C16, Bq2D. -/
theorem C16_Bq2D (c : Ctx 2 ι X) (Ri Pr : ℝ) (conv : SArr 2 ι × (ι → ℂ) → SArr 2 ι × (ι → ℂ) → SArr 2 ι × (ι → ℂ))
    (mk : ι → Bool) (hm : c.mask = some mk)
    (est : SArr 2 ι × (ι → ℂ) → SArr 2 ι × (ι → ℂ) → SArr 2 ι × (ι → ℂ) → PyF) (fuel : ℕ) (m : Method) (ds : List ℝ)
    (tstep : ℕ) (rhs ur : SArr 2 ι × (ι → ℂ)) (hu : ∀ k, mk k = false → (∀ i, ur.1 i k = 0) ∧ ur.2 k = 0)
    (c' : Closure (SArr 2 ι × (ι → ℂ)))
    (h : runSteps (rhsBq c Ri Pr conv) est fuel m tstep ds (getintegrator rhs ur) = some c') :
    ∀ k, mk k = false → (∀ i, c'.u0.1 i k = 0) ∧ c'.u0.2 k = 0 := by
  let W : Submodule ℝ (SArr 2 ι × (ι → ℂ)) :=
    { carrier := {p | ∀ k, mk k = false → (∀ i, p.1 i k = 0) ∧ p.2 k = 0}
      add_mem' := by
        intro a b ha hb k hk
        exact ⟨fun i => by simp [(ha k hk).1 i, (hb k hk).1 i], by simp [(ha k hk).2, (hb k hk).2]⟩
      zero_mem' := by intro k hk; exact ⟨fun i => rfl, rfl⟩
      smul_mem' := by
        intro a b hb k hk
        exact ⟨fun i => by simp [(hb k hk).1 i], by simp [(hb k hk).2]⟩ }
  refine run_mem (rhsBq c Ri Pr conv) W (W : Set (SArr 2 ι × (ι → ℂ))) (fun _ hu _ hw => W.add_mem hu hw)
    (fun r ub hub k hk => ?_) est fuel m ds tstep rhs ur hu (fun _ => Or.inr hu) c' h
  have h1 : ∀ i, ub.1 i k = 0 := (hub k hk).1
  have h2 : ub.2 k = 0 := (hub k hk).2
  refine ⟨fun i => ?_, ?_⟩
  · fin_cases i <;>
      simp [rhsBq, add_pressure_diffusionBq, hm, mask_zero hk, h1, h2, Function.update]
  · simp [rhsBq, add_pressure_diffusionBq, hm, mask_zero hk, h2]

/-- A mask with a removed mode, a convective term that would excite it, two Euler steps. -/
example : let c : Ctx 2 (Fin 2) Unit := ⟨⟨fun _ _ => 0, fun _ _ => 0⟩, fun _ _ => 1, 1, some ![true, false], 0⟩
    ∃ c', runSteps (rhsNS c fun _ _ _ _ => 1) (fun _ _ _ => .fin 0) 1 .ForwardEuler 0 [0.1, 0.2]
      (getintegrator 0 fun i k => if k = 0 then i else 0) = some c' ∧ c'.u0 1 1 = 0 := by
  intro c
  obtain ⟨c', hc'⟩ : ∃ c', runSteps (rhsNS c fun _ _ _ _ => 1) (fun _ _ _ => .fin 0) 1 .ForwardEuler 0 [0.1, 0.2]
    (getintegrator 0 fun i k => if k = 0 then i else 0) = some c' := ⟨_, rfl⟩
  refine ⟨c', hc', C16_NS c _ ![true, false] rfl (fun _ _ _ => rfl) _ 1 .ForwardEuler _ 0 0 _ (fun k hk i => ?_) c' hc' 1 rfl 1⟩
  fin_cases k
  · simp at hk
  · rfl

end SpectralDNS.Periodic

import Verif.Lemmas.Retained
import Verif.Props.SymmetryFFT
import Verif.Props.SpectralAccuracy
import Verif.Props.Decay

/-!
# C122: the 2/3-rule (the default dealiasing) is the 3/2-rule on the mesh of the retained modes
-/

namespace SpectralDNS.Periodic

open Complex Spec Dealias
open Torus (IsReal)

section
variable {d : ℕ} {ι X ι' X' : Type*} {T : Space ι X} {T' : Space ι' X'} {K : Fin d → ι → ℝ} {K' : Fin d → ι' → ℝ} {mask : Option (ι → Bool)}
  {mask' : Option (ι' → Bool)} {σ : (ι → ℂ) →ₗ[ℝ] (ι' → ℂ)} (S : Carries T T' K K' mask mask' σ) (H : Additive T) (H' : Additive T')
include S

theorem Carries.pr (a b : ι → ℂ) : pr T' mask' (σ a) (σ b) = σ (pr T mask a b) := by
  rw [Periodic.pr, Periodic.pr, S.keep, S.product]

theorem Carries.momentum (nu : ℝ) (G u F : SArr d ι) :
    momentum K' nu (onRows σ d G) (onRows σ d u) (onRows σ d F) = onRows σ d (momentum K nu G u F) := by
  funext i
  show _ = σ (Periodic.momentum K nu G u F i)
  unfold Periodic.momentum
  simp only [map_add, map_smul, map_sum, S.deriv, S.inv]
  rfl

include H H'

theorem Carries.advection (u : SArr d ι) (i : Fin d) :
    keepL mask' (Spec.advection T'.forward T'.backward K' (onRows σ d u) i) = σ (keepL mask (Spec.advection T.forward T.backward K u i)) := by
  rw [keep_advection H, keep_advection H', map_sum]
  exact Finset.sum_congr rfl fun j _ => by rw [← S.pr, S.deriv]; rfl

omit H H' in
theorem Carries.divergenceForm (u : SArr d ι) (i : Fin d) :
    keepL mask' (Spec.divergenceForm T'.forward T'.backward K' (onRows σ d u) i) = σ (keepL mask (Spec.divergenceForm T.forward T.backward K u i)) := by
  rw [keep_divergenceForm, keep_divergenceForm, map_sum]
  exact Finset.sum_congr rfl fun j _ => by rw [S.deriv, ← S.pr]; rfl

theorem Carries.stressDiv (u b : SArr d ι) (i : Fin d) :
    keepL mask' (Spec.stressDiv T'.forward T'.backward K' (onRows σ d u) (onRows σ d b) i) = σ (keepL mask (Spec.stressDiv T.forward T.backward K u b i)) := by
  rw [keep_stressDiv H, keep_stressDiv H', map_sum]
  exact Finset.sum_congr rfl fun j _ => by rw [S.deriv, map_sub σ, ← S.pr, ← S.pr]; rfl

theorem Carries.induction (u b : SArr d ι) (i : Fin d) :
    keepL mask' (Spec.induction T'.forward T'.backward K' (onRows σ d u) (onRows σ d b) i) = σ (keepL mask (Spec.induction T.forward T.backward K u b i)) := by
  rw [keep_induction H, keep_induction H', map_sum]
  exact Finset.sum_congr rfl fun j _ => by rw [S.deriv, map_sub σ, ← S.pr, ← S.pr]; rfl

omit H H' in
theorem Carries.fluxDiv (u : SArr d ι) (rho : ι → ℂ) :
    keepL mask' (Spec.fluxDiv T'.forward T'.backward K' (onRows σ d u) (σ rho)) = σ (keepL mask (Spec.fluxDiv T.forward T.backward K u rho)) := by
  rw [keep_fluxDiv, keep_fluxDiv, map_sum]
  exact Finset.sum_congr rfl fun j _ => by rw [S.deriv, ← S.pr]; rfl

end

section
variable {ι X ι' X' : Type*} {T : Space ι X} {T' : Space ι' X'} {mask : Option (ι → Bool)} {mask' : Option (ι' → Bool)} {σ : (ι → ℂ) →ₗ[ℝ] (ι' → ℂ)}

theorem Carries.lamb {K : Fin 3 → ι → ℝ} {K' : Fin 3 → ι' → ℝ} (S : Carries T T' K K' mask mask' σ) (H : Additive T) (H' : Additive T') (u : SArr 3 ι) (i : Fin 3) :
    keepL mask' (Spec.lamb T'.forward T'.backward K' (onRows σ 3 u) i) = σ (keepL mask (Spec.lamb T.forward T.backward K u i)) := by
  rw [keep_lamb H, keep_lamb H', map_sum]
  exact Finset.sum_congr rfl fun j _ => by rw [map_sub, ← S.pr, ← S.pr, S.deriv, S.deriv]; rfl

theorem Carries.lamb2 {K : Fin 2 → ι → ℝ} {K' : Fin 2 → ι' → ℝ} (S : Carries T T' K K' mask mask' σ) (H : Additive T) (H' : Additive T') (u : SArr 2 ι) (i : Fin 2) :
    keepL mask' (Spec.lamb2 T'.forward T'.backward K' (onRows σ 2 u) i) = σ (keepL mask (Spec.lamb2 T.forward T.backward K u i)) := by
  rw [keep_lamb2 H, keep_lamb2 H', map_sum]
  exact Finset.sum_congr rfl fun j _ => by rw [map_sub, ← S.pr, ← S.pr, S.deriv, S.deriv]; rfl

/-- Each form of the convection as a multiple of a sum of products. -/
theorem conv_normal (name : String) (conv conv')
    (hname : (getConvection name : Option (Scratch 3 ι X → SArr 3 ι → SArr 3 ι → Space ι X → (Fin 3 → ι → ℝ) → SArr 3 ι)) = some conv)
    (hname' : (getConvection name : Option (Scratch 3 ι' X' → SArr 3 ι' → SArr 3 ι' → Space ι' X' → (Fin 3 → ι' → ℝ) → SArr 3 ι')) = some conv') :
    ∃ a b c : ℝ, (∀ w r u T K i, conv w r u T K i = a • Spec.advection T.forward T.backward K u i + b • Spec.divergenceForm T.forward T.backward K u i +
        c • Spec.lamb T.forward T.backward K u i) ∧
      ∀ w r u T K i, conv' w r u T K i = a • Spec.advection T.forward T.backward K u i + b • Spec.divergenceForm T.forward T.backward K u i +
        c • Spec.lamb T.forward T.backward K u i := by
  have hf := C06_convection_forms (ι := ι) (X := X) name
  have hf' := C06_convection_forms (ι := ι') (X := X') name
  rw [hname] at hf
  rw [hname'] at hf'
  by_cases h1 : name = "Standard"
  · refine ⟨-1, 0, 0, fun w r u T K i => ?_, fun w r u T K i => ?_⟩ <;> funext k
    · rcases hf w r u T K i k with ⟨_, e⟩ | ⟨e, _⟩ | ⟨e, _⟩ | ⟨e, _⟩
      · simp [e]
      all_goals exact absurd (h1.symm.trans e) (by decide)
    · rcases hf' w r u T K i k with ⟨_, e⟩ | ⟨e, _⟩ | ⟨e, _⟩ | ⟨e, _⟩
      · simp [e]
      all_goals exact absurd (h1.symm.trans e) (by decide)
  by_cases h2 : name = "Divergence"
  · refine ⟨0, -1, 0, fun w r u T K i => ?_, fun w r u T K i => ?_⟩ <;> funext k
    · rcases hf w r u T K i k with ⟨e, _⟩ | ⟨_, e⟩ | ⟨e, _⟩ | ⟨e, _⟩
      · exact absurd e h1
      · simp [e]
      all_goals exact absurd (h2.symm.trans e) (by decide)
    · rcases hf' w r u T K i k with ⟨e, _⟩ | ⟨_, e⟩ | ⟨e, _⟩ | ⟨e, _⟩
      · exact absurd e h1
      · simp [e]
      all_goals exact absurd (h2.symm.trans e) (by decide)
  by_cases h3 : name = "Skewed"
  · refine ⟨-1 / 2, -1 / 2, 0, fun w r u T K i => ?_, fun w r u T K i => ?_⟩ <;> funext k
    · rcases hf w r u T K i k with ⟨e, _⟩ | ⟨e, _⟩ | ⟨_, e⟩ | ⟨e, _⟩
      · exact absurd e h1
      · exact absurd e h2
      · simp [e]; ring
      · exact absurd (h3.symm.trans e) (by decide)
    · rcases hf' w r u T K i k with ⟨e, _⟩ | ⟨e, _⟩ | ⟨_, e⟩ | ⟨e, _⟩
      · exact absurd e h1
      · exact absurd e h2
      · simp [e]; ring
      · exact absurd (h3.symm.trans e) (by decide)
  · refine ⟨0, 0, 1, fun w r u T K i => ?_, fun w r u T K i => ?_⟩ <;> funext k
    · rcases hf w r u T K i k with ⟨e, _⟩ | ⟨e, _⟩ | ⟨e, _⟩ | ⟨_, e⟩
      · exact absurd e h1
      · exact absurd e h2
      · exact absurd e h3
      · simp [e]
    · rcases hf' w r u T K i k with ⟨e, _⟩ | ⟨e, _⟩ | ⟨e, _⟩ | ⟨_, e⟩
      · exact absurd e h1
      · exact absurd e h2
      · exact absurd e h3
      · simp [e]

theorem Carries.conv {K : Fin 3 → ι → ℝ} {K' : Fin 3 → ι' → ℝ} (S : Carries T T' K K' mask mask' σ) (H : Additive T) (H' : Additive T') (name : String) (conv conv')
    (hname : (getConvection name : Option (Scratch 3 ι X → SArr 3 ι → SArr 3 ι → Space ι X → (Fin 3 → ι → ℝ) → SArr 3 ι)) = some conv)
    (hname' : (getConvection name : Option (Scratch 3 ι' X' → SArr 3 ι' → SArr 3 ι' → Space ι' X' → (Fin 3 → ι' → ℝ) → SArr 3 ι')) = some conv')
    (w w' r r') (u : SArr 3 ι) : (fun i => keepL mask' (conv' w' r' (onRows σ 3 u) T' K' i)) = onRows σ 3 fun i => keepL mask (conv w r u T K i) := by
  obtain ⟨a, b, c, h1, h2⟩ := conv_normal name conv conv' hname hname'
  funext i
  show _ = σ (keepL mask (conv w r u T K i))
  rw [h1, h2]
  simp only [map_add, map_smul, S.advection H H', S.divergenceForm, S.lamb H H']

end

/-! ## The right-hand sides -/

section
variable {ι X ι' X' : Type*} {σ : (ι → ℂ) →ₗ[ℝ] (ι' → ℂ)}

theorem rhsNS_carried {d : ℕ} (c : Ctx d ι X) (c' : Ctx d ι' X') (S : Carries c.Tp c'.Tp c.K c'.K c.mask c'.mask σ) (hnu : c'.nu = c.nu)
    (hS : c'.Source = onRows σ d c.Source) (conv conv') (r r' u)
    (h : (fun i => keepL c'.mask (conv' r' (onRows σ d u) i)) = onRows σ d fun i => keepL c.mask (conv r u i)) :
    rhsNS c' conv' r' (onRows σ d u) = onRows σ d (rhsNS c conv r u) := by
  rw [rhsNS_D, rhsNS_D, h, hnu, hS, S.momentum]

theorem rhsVV_carried (c : Ctx 3 ι X) (c' : Ctx 3 ι' X') (S : Carries c.Tp c'.Tp c.K c'.K c.mask c'.mask σ) (H : Additive c.Tp) (H' : Additive c'.Tp)
    (hnu : c'.nu = c.nu) (hS : c'.Source = onRows σ 3 c.Source) (w w' r r' u) : rhsVV c' w' r' (onRows σ 3 u) = onRows σ 3 (rhsVV c w r u) := by
  rw [rhsVV_D c' H', rhsVV_D c H, hnu, hS, velocityHat_inv2, velocityHat_inv2]
  have hc : ∀ u : SArr 3 ι, curl c'.K (onRows σ 3 u) = onRows σ 3 (curl c.K u) := fun u => by
    funext i
    show _ = σ (curl c.K u i)
    rw [curl_D, curl_D, map_sub, S.deriv, S.deriv]
    rfl
  have hp : (fun i : Fin 3 => pr c'.Tp c'.mask (inv2 c'.K (curl c'.K (onRows σ 3 u) (i + 1))) (onRows σ 3 u (i + 2)) -
      pr c'.Tp c'.mask (inv2 c'.K (curl c'.K (onRows σ 3 u) (i + 2))) (onRows σ 3 u (i + 1))) =
      onRows σ 3 fun i : Fin 3 => pr c.Tp c.mask (inv2 c.K (curl c.K u (i + 1))) (u (i + 2)) - pr c.Tp c.mask (inv2 c.K (curl c.K u (i + 2))) (u (i + 1)) := by
    funext i
    show pr c'.Tp c'.mask (inv2 c'.K (curl c'.K (onRows σ 3 u) (i + 1))) (σ (u (i + 2))) -
      pr c'.Tp c'.mask (inv2 c'.K (curl c'.K (onRows σ 3 u) (i + 2))) (σ (u (i + 1))) = σ (_ - _)
    rw [map_sub, ← S.pr, ← S.pr, S.inv, S.inv, hc]
    rfl
  have hl : (fun i : Fin 3 => ∑ j, D c'.K j (D c'.K j (onRows σ 3 u i))) = onRows σ 3 fun i => ∑ j, D c.K j (D c.K j (u i)) := by
    funext i
    show ∑ j, D c'.K j (D c'.K j (σ (u i))) = σ (∑ j, D c.K j (D c.K j (u i)))
    simp only [map_sum, S.deriv]
  rw [hp, hc, hl, map_add, map_add, map_smul]

theorem rhsMHD_carried (c : Ctx 3 ι X) (c' : Ctx 3 ι' X') (S : Carries c.Tp c'.Tp c.K c'.K c.mask c'.mask σ) (H : Additive c.Tp) (H' : Additive c'.Tp)
    (hnu : c'.nu = c.nu) (eta : ℝ) (r r' u) :
    rhsMHD c' eta (fun _ ub => convMHD ub c'.Tp c'.K) r' ((onRows σ 3).prodMap (onRows σ 3) u) =
      (onRows σ 3).prodMap (onRows σ 3) (rhsMHD c eta (fun _ ub => convMHD ub c.Tp c.K) r u) := by
  rw [rhsMHD_D, rhsMHD_D]
  simp only [convMHD_eq c.Tp H, convMHD_eq c'.Tp H', LinearMap.prodMap_apply]
  refine Prod.ext ?_ ?_
  · dsimp only
    rw [← S.momentum, map_zero, hnu]
    congr 1
    funext i
    show keepL c'.mask (-stressDiv c'.Tp.forward c'.Tp.backward c'.K (onRows σ 3 u.1) (onRows σ 3 u.2) i) =
      σ (keepL c.mask (-stressDiv c.Tp.forward c.Tp.backward c.K u.1 u.2 i))
    rw [map_neg, map_neg, map_neg, S.stressDiv H H']
  · funext i
    show keepL c'.mask (Spec.induction c'.Tp.forward c'.Tp.backward c'.K (onRows σ 3 u.1) (onRows σ 3 u.2) i) + eta • ∑ j, D c'.K j (D c'.K j (σ (u.2 i))) =
      σ (keepL c.mask (Spec.induction c.Tp.forward c.Tp.backward c.K u.1 u.2 i) + eta • ∑ j, D c.K j (D c.K j (u.2 i)))
    rw [S.induction H H', map_add, map_smul, map_sum]
    simp only [S.deriv]

theorem rhsBq_carried (c : Ctx 2 ι X) (c' : Ctx 2 ι' X') (S : Carries c.Tp c'.Tp c.K c'.K c.mask c'.mask σ) (H : Additive c.Tp) (H' : Additive c'.Tp)
    (hnu : c'.nu = c.nu) (Ri Pr : ℝ) (w w' r r' u) :
    rhsBq c' Ri Pr (fun r ur => convBq w' r ur c'.Tp c'.K) r' ((onRows σ 2).prodMap σ u) =
      (onRows σ 2).prodMap σ (rhsBq c Ri Pr (fun r ur => convBq w r ur c.Tp c.K) r u) := by
  rw [rhsBq_D, rhsBq_D]
  simp only [convBq_eq, LinearMap.prodMap_apply]
  refine Prod.ext ?_ ?_
  · dsimp only
    rw [← S.momentum, map_zero, hnu]
    congr 1
    funext i
    show _ = σ (keepL c.mask (lamb2 c.Tp.forward c.Tp.backward c.K u.1 i) + if i = 1 then -Ri • u.2 else 0)
    rw [S.lamb2 H H', map_add]
    congr 1
    split_ifs
    · rw [map_smul]
    · rw [map_zero]
  · show keepL c'.mask (-fluxDiv c'.Tp.forward c'.Tp.backward c'.K (onRows σ 2 u.1) (σ u.2)) + (c'.nu / Pr) • ∑ j, D c'.K j (D c'.K j (σ u.2)) =
      σ (keepL c.mask (-fluxDiv c.Tp.forward c.Tp.backward c.K u.1 u.2) + (c.nu / Pr) • ∑ j, D c.K j (D c.K j u.2))
    rw [map_neg, S.fluxDiv, map_add, map_smul, map_sum, map_neg, map_neg, hnu]
    simp only [S.deriv]

end

/-! ## The retained coefficients -/

section
variable {n d : ℕ} {N c : Fin (n + 1) → ℕ} (h : ∀ i, 2 * c i < N i)

theorem rows_iff (u : SArr d (RModes N)) (u' : SArr d (RModes (meshOf c))) : (∀ i, SameModes (u i) (u' i)) ↔ u' = onRows (low h) d u := by
  constructor
  · exact fun hs => funext fun i => (sameModes_iff h _ _).1 (hs i)
  · rintro rfl i
    exact (sameModes_iff h _ _).2 rfl

theorem lowPass_up (a : RModes N → ℂ) (k : RModes (meshOf c)) : lowPass N c a (up h k) = a (up h k) := if_pos fun i => by rw [waves_up]; exact waves_meshOf c k i

theorem lowPass_off (a : RModes N → ℂ) (k : RModes N) (hk : k ∉ Set.range (up h)) : lowPass N c a k = 0 :=
  if_neg fun h' => hk (by obtain ⟨l, hl⟩ := up_of h h'; exact ⟨l, hl⟩)

/-- The function of the retained modes. -/
theorem fn_lowPass (L : Fin (n + 1) → ℝ) (a : RModes N → ℂ) : fn N L (lowPass N c a) = fn (meshOf c) L (low h a) := by
  funext x
  simp only [fn, trigField]
  congr 1
  symm
  refine Fintype.sum_of_injective (up h) (up_injective h) _ _ (fun k hk => ?_) fun k => ?_
  · simp [lowPass_off h a k hk]
  · rw [lowPass_up, rweight_up]
    simp only [scaledWaves, waves_up]
    rfl

theorem power_lowPass (u v : SArr d (RModes N)) :
    power (rweight N) (fun i => lowPass N c (u i)) v = power (rweight (meshOf c)) (onRows (low h) d u) (onRows (low h) d v) := by
  unfold power
  refine Finset.sum_congr rfl fun i _ => ?_
  symm
  refine Fintype.sum_of_injective (up h) (up_injective h) _ _ (fun k hk => ?_) fun k => ?_
  · simp [lowPass_off h (u i) k hk]
  · simp only [lowPass_up h, rweight_up h]
    rfl

theorem energy_lowPass (u : SArr d (RModes N)) : energy (rweight N) (fun i => lowPass N c (u i)) = energy (rweight (meshOf c)) (onRows (low h) d u) := by
  unfold energy
  congr 1
  refine Finset.sum_congr rfl fun i _ => ?_
  symm
  refine Fintype.sum_of_injective (up h) (up_injective h) _ _ (fun k hk => ?_) fun k => ?_
  · simp [lowPass_off h (u i) k hk]
  · simp only [lowPass_up h, rweight_up h]
    rfl

theorem dissipation_lowPass (L : Fin (n + 1) → ℝ) (u : SArr (n + 1) (RModes N)) :
    dissipation (rweight N) (scaledWaves N L) (fun i => lowPass N c (u i)) = dissipation (rweight (meshOf c)) (scaledWaves (meshOf c) L) (onRows (low h) _ u) := by
  unfold dissipation
  symm
  refine Fintype.sum_of_injective (up h) (up_injective h) _ _ (fun k hk => ?_) fun k => ?_
  · simp [lowPass_off h _ k hk]
  · simp only [lowPass_up h, rweight_up h]
    congr 2
    simp only [Spec.normSq, at', scaledWaves, waves_up]

theorem low_solenoidal (L : Fin (n + 1) → ℝ) {u : SArr (n + 1) (RModes N)} (hu : Solenoidal (scaledWaves N L) u) :
    Solenoidal (scaledWaves (meshOf c) L) (onRows (low h) _ u) := fun k => by
  have := hu (up h k)
  simp only [dot, at', scaledWaves, waves_up] at this ⊢
  exact this

theorem low_real {a : RModes N → ℂ} (ha : IsReal N a) : IsReal (meshOf c) (low h a) := fun k k' hk => ha _ _ fun i => by rw [waves_up, waves_up, hk]

theorem low_zeroMean (L : Fin (n + 1) → ℝ) {u : SArr (n + 1) (RModes N)} (hu : ZeroMean (scaledWaves N L) u) :
    ZeroMean (scaledWaves (meshOf c) L) (onRows (low h) _ u) := fun k hk i =>
  hu (up h k) (fun i => by have := hk i; simp only [scaledWaves, waves_up] at this ⊢; exact this) i

end

/-! ## C122 -/

section
variable {n : ℕ} {N c : Fin (n + 1) → ℕ}

theorem two_lt (h3 : ∀ i, 3 * c i < N i) (i : Fin (n + 1)) : 2 * c i < N i := by have := h3 i; omega

/-- Runs along a linear map which carries one right-hand side to another. -/
theorem carried_run {V V' : Type*} [AddCommGroup V] [Module ℝ V] [AddCommGroup V'] [Module ℝ V'] (Φ : V →ₗ[ℝ] V') (F : V → V → V) (F' : V' → V' → V')
    (hc : ∀ r r' u, F' r' (Φ u) = Φ (F r u)) (est est') (fuel : ℕ) (m : Method) (hb : m ≠ .BS5 true) (ds : List ℝ) (tstep : ℕ) (rhs : V) (rhs' : V') (u : V)
    (r : Closure V) (h : runSteps F est fuel m tstep ds (getintegrator rhs u) = some r) :
    ∃ r', runSteps F' est' fuel m tstep ds (getintegrator rhs' (Φ u)) = some r' ∧ r'.u0 = Φ r.u0 := by
  obtain ⟨r', h1, -, h3⟩ := moved_run Φ ⊤ F F' (fun _ _ _ => trivial) (fun r r' u _ => hc r r' u) est est' fuel m hb ds tstep rhs rhs' u trivial r h
  exact ⟨r', h1, h3⟩

theorem carried_solves {V V' : Type*} [NormedAddCommGroup V] [NormedSpace ℝ V] [FiniteDimensional ℝ V] [NormedAddCommGroup V'] [NormedSpace ℝ V'] (Φ : V →ₗ[ℝ] V')
    {f : V → V} {f' : V' → V'} (hc : ∀ u, f' (Φ u) = Φ (f u)) {T : ℝ} {y : ℝ → V} (hy : SolvesOn f T y) : SolvesOn f' T fun t => Φ (y t) := fun t ht => by
  rw [hc]
  exact (LinearMap.toContinuousLinearMap Φ).hasFDerivAt.comp_hasDerivWithinAt t (hy t ht)

end

/-- The right-hand side of NS. -/
theorem ns_carried {N c : Fin 3 → ℕ} (h3 : ∀ i, 3 * c i < N i) (both masked : Bool) (L : Fin 3 → ℝ) (nu : ℝ) (Source : SArr 3 (RModes N)) (name : String) (conv conv')
    (hname : getConvection name = some conv) (hname' : getConvection name = some conv') (w : Scratch 3 (RModes N) (Grid N))
    (w' : Scratch 3 (RModes (meshOf c)) (Grid fun i => padded (meshOf c i))) (r r' u) :
    rhsNS (padCtx (meshOf c) L nu (onRows (low (two_lt h3)) 3 Source)) (fun r u => conv' w' r u (rspace (meshOf c) fun i => padded (meshOf c i)) (scaledWaves (meshOf c) L)) r'
        (onRows (low (two_lt h3)) 3 u) =
      onRows (low (two_lt h3)) 3 (rhsNS (directCtx N c both masked L nu Source) (fun r u => conv w r u (directSpace N c both) (scaledWaves N L)) r u) := by
  have S := direct_carries h3 (two_lt h3) both masked L _ rfl
  exact rhsNS_carried (directCtx N c both masked L nu Source) (padCtx (meshOf c) L nu (onRows (low (two_lt h3)) 3 Source)) S rfl rfl _ _ r r' u
    (S.conv (directSpace_additive N c both) (rspace_additive _ _) name conv conv' hname hname' w w' r r' u)

/-- C122.  NS with the 2/3-rule, any of the four forms of convection: the coefficients up to the cut-off `c` are throughout the run those of the same solver
with the 3/2-rule on the mesh with `2c + 1` points, whatever the other coefficients are. -/
theorem C122_ns {N c : Fin 3 → ℕ} (h3 : ∀ i, 3 * c i < N i) (both masked : Bool) (L : Fin 3 → ℝ) (nu : ℝ) (Source : SArr 3 (RModes N)) (Source' : SArr 3 (RModes (meshOf c)))
    (hS : ∀ i, SameModes (Source i) (Source' i)) (name : String) (conv conv') (hname : getConvection name = some conv) (hname' : getConvection name = some conv')
    (w : Scratch 3 (RModes N) (Grid N)) (w' : Scratch 3 (RModes (meshOf c)) (Grid fun i => padded (meshOf c i))) (est est') (fuel : ℕ) (m : Method) (hb : m ≠ .BS5 true)
    (ds : List ℝ) (tstep : ℕ) (rhs u : SArr 3 (RModes N)) (rhs' u' : SArr 3 (RModes (meshOf c))) (hu : ∀ i, SameModes (u i) (u' i)) (r : Closure (SArr 3 (RModes N)))
    (hr : runSteps (rhsNS (directCtx N c both masked L nu Source) fun r u => conv w r u (directSpace N c both) (scaledWaves N L)) est fuel m tstep ds
      (getintegrator rhs u) = some r) :
    ∃ r', runSteps (rhsNS (padCtx (meshOf c) L nu Source') fun r u => conv' w' r u (rspace (meshOf c) fun i => padded (meshOf c i)) (scaledWaves (meshOf c) L)) est' fuel m
      tstep ds (getintegrator rhs' u') = some r' ∧ ∀ i, SameModes (r.u0 i) (r'.u0 i) := by
  obtain rfl := (rows_iff (two_lt h3) u u').1 hu
  obtain rfl := (rows_iff (two_lt h3) Source Source').1 hS
  obtain ⟨r', h1, h2⟩ := carried_run (onRows (low (two_lt h3)) 3) _ _ (fun r r' u => ns_carried h3 both masked L nu Source name conv conv' hname hname' w w' r r' u) est est'
    fuel m hb ds tstep rhs rhs' u r hr
  exact ⟨r', h1, (rows_iff (two_lt h3) _ _).2 h2⟩

/-- C122.  NS2D. -/
theorem C122_ns2d {N c : Fin 2 → ℕ} (h3 : ∀ i, 3 * c i < N i) (both masked : Bool) (L : Fin 2 → ℝ) (nu : ℝ) (Source : SArr 2 (RModes N)) (Source' : SArr 2 (RModes (meshOf c)))
    (hS : ∀ i, SameModes (Source i) (Source' i)) (w : RModes N → ℂ) (w' : RModes (meshOf c) → ℂ) (est est') (fuel : ℕ) (m : Method) (hb : m ≠ .BS5 true)
    (ds : List ℝ) (tstep : ℕ) (rhs u : SArr 2 (RModes N)) (rhs' u' : SArr 2 (RModes (meshOf c))) (hu : ∀ i, SameModes (u i) (u' i)) (r : Closure (SArr 2 (RModes N)))
    (hr : runSteps (rhsNS (directCtx N c both masked L nu Source) fun r u => conv2DVortex w r u (directSpace N c both) (scaledWaves N L)) est fuel m tstep ds
      (getintegrator rhs u) = some r) :
    ∃ r', runSteps (rhsNS (padCtx (meshOf c) L nu Source') fun r u => conv2DVortex w' r u (rspace (meshOf c) fun i => padded (meshOf c i)) (scaledWaves (meshOf c) L)) est' fuel
      m tstep ds (getintegrator rhs' u') = some r' ∧ ∀ i, SameModes (r.u0 i) (r'.u0 i) := by
  obtain rfl := (rows_iff (two_lt h3) u u').1 hu
  obtain rfl := (rows_iff (two_lt h3) Source Source').1 hS
  have S := direct_carries h3 (two_lt h3) both masked L _ rfl
  obtain ⟨r', h1, h2⟩ := carried_run (onRows (low (two_lt h3)) 2) _
    (rhsNS (padCtx (meshOf c) L nu _) fun r u => conv2DVortex w' r u (rspace (meshOf c) fun i => padded (meshOf c i)) (scaledWaves (meshOf c) L))
    (fun r r' u => rhsNS_carried (directCtx N c both masked L nu Source) (padCtx (meshOf c) L nu _) S rfl rfl _ _ r r' u
      (by simp only [conv2D_lamb2]; exact _root_.funext fun i => S.lamb2 (directSpace_additive N c both) (rspace_additive _ _) u i)) est est'
    fuel m hb ds tstep rhs rhs' u r hr
  exact ⟨r', h1, (rows_iff (two_lt h3) _ _).2 h2⟩

/-- C122.  VV. -/
theorem C122_vv {N c : Fin 3 → ℕ} (h3 : ∀ i, 3 * c i < N i) (both masked : Bool) (L : Fin 3 → ℝ) (nu : ℝ) (Source : SArr 3 (RModes N)) (Source' : SArr 3 (RModes (meshOf c)))
    (hS : ∀ i, SameModes (Source i) (Source' i)) (w : Scratch 3 (RModes N) (Grid N)) (w' : Scratch 3 (RModes (meshOf c)) (Grid fun i => padded (meshOf c i))) (est est')
    (fuel : ℕ) (m : Method) (hb : m ≠ .BS5 true) (ds : List ℝ) (tstep : ℕ) (rhs u : SArr 3 (RModes N)) (rhs' u' : SArr 3 (RModes (meshOf c)))
    (hu : ∀ i, SameModes (u i) (u' i)) (r : Closure (SArr 3 (RModes N)))
    (hr : runSteps (rhsVV (directCtx N c both masked L nu Source) w) est fuel m tstep ds (getintegrator rhs u) = some r) :
    ∃ r', runSteps (rhsVV (padCtx (meshOf c) L nu Source') w') est' fuel m tstep ds (getintegrator rhs' u') = some r' ∧ ∀ i, SameModes (r.u0 i) (r'.u0 i) := by
  obtain rfl := (rows_iff (two_lt h3) u u').1 hu
  obtain rfl := (rows_iff (two_lt h3) Source Source').1 hS
  have S := direct_carries h3 (two_lt h3) both masked L _ rfl
  obtain ⟨r', h1, h2⟩ := carried_run (onRows (low (two_lt h3)) 3) _ (rhsVV (padCtx (meshOf c) L nu _) w')
    (fun r r' u => rhsVV_carried (directCtx N c both masked L nu Source) (padCtx (meshOf c) L nu _) S (directSpace_additive N c both) (rspace_additive _ _) rfl rfl w w' r r' u)
    est est' fuel m hb ds tstep rhs rhs' u r hr
  exact ⟨r', h1, (rows_iff (two_lt h3) _ _).2 h2⟩

/-- C122.  MHD. -/
theorem C122_mhd {N c : Fin 3 → ℕ} (h3 : ∀ i, 3 * c i < N i) (both masked : Bool) (L : Fin 3 → ℝ) (nu eta : ℝ) (Source : SArr 3 (RModes N))
    (Source' : SArr 3 (RModes (meshOf c))) (est est') (fuel : ℕ) (m : Method) (hb : m ≠ .BS5 true) (ds : List ℝ) (tstep : ℕ) (rhs u : SArr 3 (RModes N) × SArr 3 (RModes N))
    (rhs' u' : SArr 3 (RModes (meshOf c)) × SArr 3 (RModes (meshOf c))) (hu : ∀ i, SameModes (u.1 i) (u'.1 i) ∧ SameModes (u.2 i) (u'.2 i))
    (r : Closure (SArr 3 (RModes N) × SArr 3 (RModes N)))
    (hr : runSteps (rhsMHD (directCtx N c both masked L nu Source) eta fun _ ub => convMHD ub (directSpace N c both) (scaledWaves N L)) est fuel m tstep ds
      (getintegrator rhs u) = some r) :
    ∃ r', runSteps (rhsMHD (padCtx (meshOf c) L nu Source') eta fun _ ub => convMHD ub (rspace (meshOf c) fun i => padded (meshOf c i)) (scaledWaves (meshOf c) L)) est' fuel m
      tstep ds (getintegrator rhs' u') = some r' ∧ ∀ i, SameModes (r.u0.1 i) (r'.u0.1 i) ∧ SameModes (r.u0.2 i) (r'.u0.2 i) := by
  obtain rfl : u' = ((onRows (low (two_lt h3)) 3).prodMap (onRows (low (two_lt h3)) 3)) u :=
    Prod.ext ((rows_iff (two_lt h3) _ _).1 fun i => (hu i).1) ((rows_iff (two_lt h3) _ _).1 fun i => (hu i).2)
  have S := direct_carries h3 (two_lt h3) both masked L _ rfl
  obtain ⟨r', h1, h2⟩ := carried_run ((onRows (low (two_lt h3)) 3).prodMap (onRows (low (two_lt h3)) 3)) _
    (rhsMHD (padCtx (meshOf c) L nu Source') eta fun _ ub => convMHD ub (rspace (meshOf c) fun i => padded (meshOf c i)) (scaledWaves (meshOf c) L))
    (fun r r' u => rhsMHD_carried (directCtx N c both masked L nu Source) (padCtx (meshOf c) L nu Source') S (directSpace_additive N c both) (rspace_additive _ _) rfl eta r r' u)
    est est' fuel m hb ds tstep rhs rhs' u r hr
  exact ⟨r', h1, fun i => ⟨(rows_iff (two_lt h3) _ _).2 (congrArg Prod.fst h2) i, (rows_iff (two_lt h3) _ _).2 (congrArg Prod.snd h2) i⟩⟩

/-- C122.  Bq2D. -/
theorem C122_bq {N c : Fin 2 → ℕ} (h3 : ∀ i, 3 * c i < N i) (both masked : Bool) (L : Fin 2 → ℝ) (nu Ri Pr : ℝ) (Source : SArr 2 (RModes N))
    (Source' : SArr 2 (RModes (meshOf c))) (w : SArr 2 (RModes N)) (w' : SArr 2 (RModes (meshOf c))) (est est') (fuel : ℕ) (m : Method) (hb : m ≠ .BS5 true) (ds : List ℝ)
    (tstep : ℕ) (rhs u : SArr 2 (RModes N) × (RModes N → ℂ)) (rhs' u' : SArr 2 (RModes (meshOf c)) × (RModes (meshOf c) → ℂ))
    (hu : (∀ i, SameModes (u.1 i) (u'.1 i)) ∧ SameModes u.2 u'.2) (r : Closure (SArr 2 (RModes N) × (RModes N → ℂ)))
    (hr : runSteps (rhsBq (directCtx N c both masked L nu Source) Ri Pr fun r ur => convBq w r ur (directSpace N c both) (scaledWaves N L)) est fuel m tstep ds
      (getintegrator rhs u) = some r) :
    ∃ r', runSteps (rhsBq (padCtx (meshOf c) L nu Source') Ri Pr fun r ur => convBq w' r ur (rspace (meshOf c) fun i => padded (meshOf c i)) (scaledWaves (meshOf c) L)) est'
      fuel m tstep ds (getintegrator rhs' u') = some r' ∧ (∀ i, SameModes (r.u0.1 i) (r'.u0.1 i)) ∧ SameModes r.u0.2 r'.u0.2 := by
  obtain rfl : u' = ((onRows (low (two_lt h3)) 2).prodMap (low (two_lt h3))) u :=
    Prod.ext ((rows_iff (two_lt h3) _ _).1 hu.1) ((sameModes_iff (two_lt h3) _ _).1 hu.2)
  have S := direct_carries h3 (two_lt h3) both masked L _ rfl
  obtain ⟨r', h1, h2⟩ := carried_run ((onRows (low (two_lt h3)) 2).prodMap (low (two_lt h3))) _
    (rhsBq (padCtx (meshOf c) L nu Source') Ri Pr fun r ur => convBq w' r ur (rspace (meshOf c) fun i => padded (meshOf c i)) (scaledWaves (meshOf c) L))
    (fun r r' u => rhsBq_carried (directCtx N c both masked L nu Source) (padCtx (meshOf c) L nu Source') S (directSpace_additive N c both) (rspace_additive _ _) rfl Ri Pr w w'
      r r' u) est est' fuel m hb ds tstep rhs rhs' u r hr
  exact ⟨r', h1, (rows_iff (two_lt h3) _ _).2 (congrArg Prod.fst h2), (sameModes_iff (two_lt h3) _ _).2 (congrArg Prod.snd h2)⟩

/-! ## Energy, decay and accuracy of the retained modes -/

section
variable {N c : Fin 3 → ℕ} (h3 : ∀ i, 3 * c i < N i) (both masked : Bool) (L : Fin 3 → ℝ) (nu : ℝ) (Source : SArr 3 (RModes N)) (name : String)
  (conv : Scratch 3 (RModes N) (Grid N) → SArr 3 (RModes N) → SArr 3 (RModes N) → Space (RModes N) (Grid N) → (Fin 3 → RModes N → ℝ) → SArr 3 (RModes N))
  (hname : getConvection name = some conv) (w : Scratch 3 (RModes N) (Grid N)) (rhs : SArr 3 (RModes N))
include hname

/-- The retained part of a flow of the 2/3-rule is a flow of the 3/2-rule. -/
theorem flow_carried {T : ℝ} {V : ℝ → SArr 3 (RModes N)}
    (hV : SolvesOn (rhsNS (directCtx N c both masked L nu Source) (fun r u => conv w r u (directSpace N c both) (scaledWaves N L)) rhs) T V) (conv')
    (hname' : getConvection name = some conv') (w' : Scratch 3 (RModes (meshOf c)) (Grid fun i => padded (meshOf c i))) (rhs') :
    SolvesOn (rhsNS (padCtx (meshOf c) L nu (onRows (low (two_lt h3)) 3 Source)) (fun r u => conv' w' r u (rspace (meshOf c) fun i => padded (meshOf c i)) (scaledWaves (meshOf c) L))
      rhs') T fun t => onRows (low (two_lt h3)) 3 (V t) :=
  carried_solves (onRows (low (two_lt h3)) 3) (fun u => ns_carried h3 both masked L nu Source name conv conv' hname hname' w w' rhs rhs' u) hV

end

theorem exists_conv {ι X ι' X' : Type} {name : String} {conv : Scratch 3 ι X → SArr 3 ι → SArr 3 ι → Space ι X → (Fin 3 → ι → ℝ) → SArr 3 ι}
    (hname : getConvection name = some conv) : ∃ conv' : Scratch 3 ι' X' → SArr 3 ι' → SArr 3 ι' → Space ι' X' → (Fin 3 → ι' → ℝ) → SArr 3 ι', getConvection name = some conv' := by
  unfold getConvection at hname ⊢
  split_ifs at hname ⊢
  all_goals first | exact ⟨_, rfl⟩ | simp at hname

/-- C122.  Energy: with the 2/3-rule the energy of the retained modes of NS changes only by viscosity and by the force in these modes, and the retained modes of
two flows which start with the same retained modes are the same. -/
theorem C122_energy {N c : Fin 3 → ℕ} (h3 : ∀ i, 3 * c i < N i) (both masked : Bool) (L : Fin 3 → ℝ) (nu : ℝ) (hnu : 0 ≤ nu) (Source : SArr 3 (RModes N))
    (hs : Solenoidal (scaledWaves N L) Source) (name : String) (conv) (hname : getConvection name = some conv) (w : Scratch 3 (RModes N) (Grid N)) (rhs : SArr 3 (RModes N)) (T : ℝ)
    (V : ℝ → SArr 3 (RModes N))
    (hV : SolvesOn (rhsNS (directCtx N c both masked L nu Source) (fun r u => conv w r u (directSpace N c both) (scaledWaves N L)) rhs) T V)
    (h0 : Solenoidal (scaledWaves N L) (V 0)) :
    (∀ t ∈ Set.Ioo 0 T, HasDerivAt (fun s => energy (rweight N) fun i => lowPass N c (V s i))
      (-nu * dissipation (rweight N) (scaledWaves N L) (fun i => lowPass N c (V t i)) + power (rweight N) (fun i => lowPass N c (V t i)) Source) t) ∧
    ∀ V' : ℝ → SArr 3 (RModes N), SolvesOn (rhsNS (directCtx N c both masked L nu Source) (fun r u => conv w r u (directSpace N c both) (scaledWaves N L)) rhs) T V' →
      (∀ i, lowPass N c (V' 0 i) = lowPass N c (V 0 i)) → ∀ t ∈ Set.Icc 0 T, ∀ i, lowPass N c (V' t i) = lowPass N c (V t i) := by
  obtain ⟨conv', hname'⟩ := exists_conv (ι' := RModes (meshOf c)) (X' := Grid fun i => padded (meshOf c i)) hname
  obtain ⟨U, hU0, hU, hUa, hUe, hUu⟩ := C92_ns_padded (meshOf c) (fun i => by simp [meshOf]) L nu hnu (onRows (low (two_lt h3)) 3 Source) (low_solenoidal _ L hs)
    (fun i => unmasked_meshOf _) ⟨0, 0, 0⟩ name conv' hname' 0 (onRows (low (two_lt h3)) 3 (V 0)) (low_solenoidal _ L h0) (fun i => unmasked_meshOf _)
  have hVl := flow_carried h3 both masked L nu Source name conv hname w rhs hV conv' hname' ⟨0, 0, 0⟩ 0
  have e := hUu T _ hVl rfl
  constructor
  · intro t ht
    have h1 := hUe t ht.1
    rw [← e t ⟨ht.1.le, ht.2.le⟩] at h1
    rw [dissipation_lowPass (two_lt h3), power_lowPass (two_lt h3)]
    refine h1.congr_of_eventuallyEq ?_
    filter_upwards [Ioo_mem_nhds ht.1 ht.2] with s hs
    rw [energy_lowPass (two_lt h3), ← e s ⟨hs.1.le, hs.2.le⟩]
  · intro V' hV' h0' t ht i
    have key : onRows (low (two_lt h3)) 3 (V' t) = onRows (low (two_lt h3)) 3 (V t) := by
      rw [e t ht]
      refine hUu T _ (flow_carried h3 both masked L nu Source name conv hname w rhs hV' conv' hname' ⟨0, 0, 0⟩ 0) ?_ t ht
      funext i k
      have := congrFun (h0' i) (up (two_lt h3) k)
      rwa [lowPass_up, lowPass_up] at this
    funext k
    by_cases hk : k ∈ Set.range (up (two_lt h3))
    · obtain ⟨l, rfl⟩ := hk
      rw [lowPass_up, lowPass_up]
      exact congrFun (congrFun key i) l
    · rw [lowPass_off _ _ k hk, lowPass_off _ _ k hk]

/-- C122.  Decay: with the 2/3-rule, positive viscosity and a force without mean the retained modes die out and stay bounded for all times. -/
theorem C122_decay {N c : Fin 3 → ℕ} (h3 : ∀ i, 3 * c i < N i) (both masked : Bool) (L : Fin 3 → ℝ) (hL : ∀ i, 0 < L i) (l : ℝ) (hl : ∀ i, L i ≤ l) (nu : ℝ) (hnu : 0 < nu)
    (Source : SArr 3 (RModes N)) (hs : Solenoidal (scaledWaves N L) Source) (hs0 : ZeroMean (scaledWaves N L) Source) (name : String) (conv)
    (hname : getConvection name = some conv) (w : Scratch 3 (RModes N) (Grid N)) (rhs : SArr 3 (RModes N)) (T : ℝ) (V : ℝ → SArr 3 (RModes N))
    (hV : SolvesOn (rhsNS (directCtx N c both masked L nu Source) (fun r u => conv w r u (directSpace N c both) (scaledWaves N L)) rhs) T V)
    (h0 : Solenoidal (scaledWaves N L) (V 0)) : DiesOut N L l nu (fun i => lowPass N c (Source i)) T fun t i => lowPass N c (V t i) := by
  obtain ⟨conv', hname'⟩ := exists_conv (ι' := RModes (meshOf c)) (X' := Grid fun i => padded (meshOf c i)) hname
  have hVl := flow_carried h3 both masked L nu Source name conv hname w rhs hV conv' hname' ⟨0, 0, 0⟩ 0
  have H := C121_ns (meshOf c) (fun i => by simp [meshOf]) L hL l hl nu hnu (onRows (low (two_lt h3)) 3 Source) (low_solenoidal _ L hs)
    (fun i => unmasked_meshOf _) (low_zeroMean _ L hs0) ⟨0, 0, 0⟩ name conv' hname' 0 T _ hVl (low_solenoidal _ L h0) (fun i => unmasked_meshOf _)
  have ef : ∀ u : SArr 3 (RModes N), energy (rweight N) (fun i => fluctuation (scaledWaves N L) (lowPass N c (u i))) =
      energy (rweight (meshOf c)) (fun i => fluctuation (scaledWaves (meshOf c) L) (onRows (low (two_lt h3)) 3 u i)) := fun u => by
    have a1 : (fun i => fluctuation (scaledWaves N L) (lowPass N c (u i))) = fun i => lowPass N c (fluctuation (scaledWaves N L) (u i)) := by
      funext i k
      simp only [fluctuation, lowPass]
      split <;> split <;> rfl
    rw [a1, energy_lowPass (two_lt h3) fun i => fluctuation (scaledWaves N L) (u i)]
    congr 1
    funext i k
    show fluctuation (scaledWaves N L) (u i) (up (two_lt h3) k) = if _ then _ else _
    simp only [fluctuation, scaledWaves, waves_up]
    rfl
  have ep : power (rweight N) (fun i => lowPass N c (Source i)) (fun i => lowPass N c (Source i)) =
      power (rweight (meshOf c)) (onRows (low (two_lt h3)) 3 Source) (onRows (low (two_lt h3)) 3 Source) := by
    rw [power_lowPass (two_lt h3)]
    congr 1
    funext i k
    exact lowPass_up (two_lt h3) (Source i) k
  intro t ht
  obtain ⟨h1, h2, h4⟩ := H t ht
  refine ⟨fun i k hk => ?_, ?_, fun hS => ?_⟩
  · by_cases hk' : k ∈ Set.range (up (two_lt h3))
    · obtain ⟨q, rfl⟩ := hk'
      simp only [lowPass_up]
      refine h1 i q fun j => ?_
      have := hk j
      simp only [scaledWaves, waves_up] at this ⊢
      exact this
    · simp only [lowPass_off _ _ k hk']
  · simp only [ef, ep]
    exact h2
  · simp only [ef]
    refine h4 (_root_.funext fun i => _root_.funext fun k => ?_)
    have := congrFun (congrFun hS i) (up (two_lt h3) k)
    simp only [lowPass_up] at this
    exact this

/-! ## Runs -/

theorem outputs_carried {V V' : Type*} [AddCommGroup V] [Module ℝ V] [AddCommGroup V'] [Module ℝ V'] {L : V →ₗ[ℝ] V'} {S : Set V} {W : Submodule ℝ V} {F : V → V → V}
    {F' : V' → V' → V'} (H : Intertwines L S W F F') (est : V → V → V → PyF) (est' : V' → V' → V' → PyF) (m : Method) (hb : m ≠ .BS5 true) (fuel : ℕ) (ds : List ℝ) :
    ∀ (tstep : ℕ) (c : Closure V) (c' : Closure V'), ClosureMap L S W m tstep c c' → ∀ r, runOutputs F est fuel m tstep ds c = some r →
      runOutputs F' est' fuel m tstep ds c' = some (r.map fun o => (L o.1, o.2)) := by
  induction ds with
  | nil =>
    intro tstep c c' hc r h
    simp only [runOutputs, Option.some.injEq] at h ⊢
    rw [← h]
    rfl
  | cons dt ds ih =>
    intro tstep c c' hc r h
    simp only [runOutputs] at h ⊢
    split at h
    · simp at h
    · rename_i x hx
      obtain ⟨x', hx', hcm, e⟩ := integrate_map H est est' m (fun e => absurd e hb) fuel dt tstep c c' hc x hx
      rw [hx']
      simp only
      obtain ⟨q, hq, rfl⟩ := Option.map_eq_some_iff.1 h
      rw [ih _ _ _ hcm q hq, Option.map_some, List.map_cons, hcm.u0, e]

theorem outputs_rk4 {V : Type*} [AddCommGroup V] [Module ℝ V] (F : V → V → V) (est : V → V → V → PyF) (fuel : ℕ) (ds : List ℝ) :
    ∀ (tstep : ℕ) (c : Closure V), ∃ outs, runOutputs F est fuel .RK4 tstep ds c = some outs := by
  induction ds with
  | nil => exact fun _ _ => ⟨[], rfl⟩
  | cons dt ds ih =>
    intro tstep c
    simp only [runOutputs, integrate]
    obtain ⟨q, hq⟩ := ih (tstep + 1) _
    exact ⟨_, by rw [hq]; rfl⟩

theorem follows_carried {d : ℕ} {S S' κ : Type*} [Fintype κ] {L : Fin d → ℝ} {val : S → κ → (Fin d → ℝ) → ℝ} {val' : S' → κ → (Fin d → ℝ) → ℝ} {Φ : S → S'}
    (hv : ∀ s, val s = val' (Φ s)) {u : ℝ → κ → (Fin d → ℝ) → ℝ} {e : ℝ} :
    ∀ (outs : List (S × ℝ × ℝ)) (t : ℝ), FollowsFlow L val' u e t (outs.map fun o => (Φ o.1, o.2)) → FollowsFlow L val u e t outs
  | [], _, _ => trivial
  | o :: outs, t, h => ⟨by rw [hv]; exact h.1, follows_carried hv outs _ h.2⟩

/-- C122.  Convergence of the solver NS with the 2/3-rule and RK4: for every tolerance, for every sufficiently high cut-off, with a sufficiently accurate start and
force and sufficiently small steps, the retained modes of all computed velocities are within the tolerance of the solution of the Navier-Stokes equations in the
mean square. -/
theorem C122_converges {L : Fin 3 → ℝ} (hL : ∀ i, 0 < L i) {nu T : ℝ} (hnu : 0 ≤ nu) (hT : 0 ≤ T) {f : Fin 3 → (Fin 3 → ℝ) → ℝ} {u : ℝ → Fin 3 → (Fin 3 → ℝ) → ℝ}
    {p : ℝ → (Fin 3 → ℝ) → ℝ} (h : ClassicalNS L nu T f u p) (ε : ℝ) (hε : 0 < ε) :
    ∃ δ : ℝ, 0 < δ ∧ ∃ M : ℕ, ∀ (N c : Fin 3 → ℕ), (∀ i, 3 * c i < N i) → (∀ i, M ≤ c i) → ∀ (both masked : Bool),
      ∀ (Source : SArr 3 (RModes N)), Solenoidal (scaledWaves N L) Source → (∀ i, IsReal N (Source i)) →
      boxMean L (fun x => ∑ i, (f i x - fn N L (lowPass N c (Source i)) x) ^ 2) ≤ δ →
      ∀ (s : Scratch 3 (RModes N) (Grid N)) (name : String) (conv), getConvection name = some conv →
      ∀ (u0 : SArr 3 (RModes N)), Solenoidal (scaledWaves N L) u0 → (∀ i, IsReal N (u0 i)) →
      boxMean L (fun x => ∑ i, (u 0 i x - fn N L (lowPass N c (u0 i)) x) ^ 2) ≤ δ →
      ∀ est : SArr 3 (RModes N) → SArr 3 (RModes N) → SArr 3 (RModes N) → PyF,
      let F := rhsNS (directCtx N c both masked L nu Source) fun r u => conv s r u (directSpace N c both) (scaledWaves N L)
      ∃ m, Method.ofName "RK4" = some m ∧ ∃ H0 : ℝ, 0 < H0 ∧
      ∀ ds : List ℝ, (∀ d ∈ ds, 0 ≤ d ∧ d ≤ H0) → ds.sum ≤ T → ∀ (fuel : ℕ) (rhs : SArr 3 (RModes N)),
        ∃ outs, runOutputs F est (fuel + 1) m 0 ds (getintegrator rhs u0) = some outs ∧ (outs.map fun o => o.2.2) = ds ∧
          FollowsFlow L (fun V i => fn N L (lowPass N c (V i))) u ε 0 outs := by
  obtain ⟨δ, hδ, M, H⟩ := Torus.C109_converges hL hnu hT h ε hε
  refine ⟨δ, hδ, M, ?_⟩
  intro N c h3 hM both masked Source hs hsr hf s name conv hname u0 h0 h0r hi est F
  obtain ⟨conv', hname'⟩ := exists_conv (ι' := RModes (meshOf c)) (X' := Grid fun i => padded (meshOf c i)) hname
  simp only [fn_lowPass (two_lt h3)] at hf hi
  obtain ⟨m, hm, H0, hH0, hrun⟩ := H (meshOf c) (fun i => ⟨by simp [meshOf], by have := hM i; simp only [meshOf]; omega⟩) (onRows (low (two_lt h3)) 3 Source)
    (low_solenoidal _ L hs) (fun i => unmasked_meshOf _) (fun i => low_real _ (hsr i)) hf ⟨0, 0, 0⟩ name conv' hname' (onRows (low (two_lt h3)) 3 u0)
    (low_solenoidal _ L h0) (fun i => unmasked_meshOf _) (fun i => low_real _ (h0r i)) hi (fun _ _ _ => .fin 0)
  refine ⟨m, hm, H0, hH0, fun ds hds hsum fuel rhs => ?_⟩
  obtain rfl : m = .RK4 := by
    have : Method.ofName "RK4" = some .RK4 := rfl
    rw [this] at hm
    exact (Option.some.inj hm).symm
  obtain ⟨outs', h1, h2, h4⟩ := hrun ds hds hsum fuel 0
  obtain ⟨outs, ho⟩ := outputs_rk4 F est (fuel + 1) ds 0 (getintegrator rhs u0)
  have HI : Intertwines (onRows (low (two_lt h3)) 3) (Set.univ) ⊤ F
      (rhsNS (padCtx (meshOf c) L nu (onRows (low (two_lt h3)) 3 Source)) fun r u => conv' ⟨0, 0, 0⟩ r u (rspace (meshOf c) fun i => padded (meshOf c i)) (scaledWaves (meshOf c) L)) :=
    ⟨fun _ _ _ _ => trivial, fun _ _ _ => trivial, fun r r' u _ => ns_carried h3 both masked L nu Source name conv conv' hname hname' s _ r r' u⟩
  have := outputs_carried HI est (fun _ _ _ => .fin 0) .RK4 (by simp) (fuel + 1) ds 0 (getintegrator rhs u0) (getintegrator 0 (onRows (low (two_lt h3)) 3 u0))
    ⟨trivial, by simp, fun _ => trivial, rfl, by simp, fun _ => (map_zero _).symm, rfl⟩ outs ho
  obtain rfl := Option.some.inj (h1.symm.trans this)
  refine ⟨outs, ho, by rw [← h2, List.map_map]; rfl, ?_⟩
  exact follows_carried (fun V => _root_.funext fun i => fn_lowPass (two_lt h3) L (V i)) outs 0 h4

/-- C122.  When the forward transform leaves out the high modes too, a run whose start and force have no modes above the cut-off never gets any: the state is what
the theorems above are about. -/
theorem C122_stays {N c : Fin 3 → ℕ} (masked : Bool) (L : Fin 3 → ℝ) (nu : ℝ) (Source : SArr 3 (RModes N)) (hS : ∀ i, lowPass N c (Source i) = Source i) (name : String) (conv)
    (hname : getConvection name = some conv) (w : Scratch 3 (RModes N) (Grid N)) (est) (fuel : ℕ) (m : Method) (ds : List ℝ) (tstep : ℕ) (rhs u : SArr 3 (RModes N))
    (hu : ∀ i, lowPass N c (u i) = u i) (r : Closure (SArr 3 (RModes N)))
    (hr : runSteps (rhsNS (directCtx N c true masked L nu Source) fun r u => conv w r u (directSpace N c true) (scaledWaves N L)) est fuel m tstep ds
      (getintegrator rhs u) = some r) (i : Fin 3) : lowPass N c (r.u0 i) = r.u0 i := by
  have off : ∀ a : RModes N → ℂ, lowPass N c a = a ↔ ∀ k, ¬ (∀ i, |waves N i k| ≤ (c i : ℤ)) → a k = 0 := fun a =>
    ⟨fun e k hk => by rw [← e]; exact if_neg hk, fun e => _root_.funext fun k => by
      unfold lowPass
      split
      · rfl
      · rw [e k ‹_›]⟩
  let W : Submodule ℝ (SArr 3 (RModes N)) :=
    { carrier := {u | ∀ i k, ¬ (∀ i, |waves N i k| ≤ (c i : ℤ)) → u i k = 0}
      add_mem' := fun {u v} hu hv i k hk => by simp [hu i k hk, hv i k hk]
      zero_mem' := fun _ _ _ => rfl
      smul_mem' := fun t {u} hu i k hk => by simp [hu i k hk] }
  have huW : u ∈ W := fun i => (off _).1 (hu i)
  have key := run_mem _ W W (fun _ hu _ hw => W.add_mem hu hw) (fun r v hv i k hk => ?_) est fuel m ds tstep rhs u huW (fun _ => Or.inr huW) r hr
  · exact (off _).2 (key i)
  · have hc : ∀ j, conv w r v (directSpace N c true) (scaledWaves N L) j k = 0 := fun j => by
      obtain ⟨a, b, d, e, -⟩ := conv_normal (ι' := RModes N) (X' := Grid N) name conv conv hname hname
      rw [e]
      have hf : ∀ f, (directSpace N c true).forward f k = 0 := fun f => by simp only [directSpace, if_true]; exact if_neg hk
      simp [Spec.advection, Spec.divergenceForm, Spec.lamb, hf]
    have hm : ∀ j, maskNyquist (directCtx N c true masked L nu Source).mask (conv w r v (directSpace N c true) (scaledWaves N L)) j k = 0 := fun j => by
      rw [maskNyquist_keeps, hc]
      simp
    simp only [rhsNS, ComputeRHS, add_pressure_diffusion]
    rw [hm, hv i k hk]
    simp only [hm]
    simp [directCtx, (off _).1 (hS i) k hk]

/-- Data which meet the hypotheses of `C122_ns` on a mesh with twelve points per direction and the cut-off 3: a shear flow with a retained mode, and a mode above the
cut-off on the mesh of the 2/3-rule only.  The run exists. -/
example (nu : ℝ) : let N : Fin 3 → ℕ := fun _ => 12
    let c : Fin 3 → ℕ := fun _ => 3
    let u : SArr 3 (RModes N) := fun i k => if i = 2 ∧ waves N 2 k = 0 ∧ waves N 1 k = 0 ∧ (waves N 0 k = 1 ∨ waves N 0 k = 5) then 1 else 0
    let u' : SArr 3 (RModes (meshOf c)) := fun i k => if i = 2 ∧ waves (meshOf c) 2 k = 0 ∧ waves (meshOf c) 1 k = 0 ∧ waves (meshOf c) 0 k = 1 then 1 else 0
    (∀ i, 3 * c i < N i) ∧ (∀ i, SameModes (u i) (u' i)) ∧ (∃ k, u' 2 k ≠ 0) ∧ (∃ i, lowPass N c (u i) ≠ u i) ∧ Solenoidal (scaledWaves N 1) u ∧
    ∃ r, runSteps (rhsNS (directCtx N c false true 1 nu 0) fun r u => convVortex ⟨0, 0, 0⟩ r u (directSpace N c false) (scaledWaves N 1)) (fun _ _ _ => .fin 0) 1 .RK4 0
      [0.1, 0.3] (getintegrator 0 u) = some r := by
  intro N c u u'
  refine ⟨fun i => by decide, fun i k k' hk => ?_, ⟨fun i => ⟨if i = 0 then 1 else 0, by fin_cases i <;> decide⟩, ?_⟩, ⟨2, fun e => ?_⟩, fun k => ?_, ⟨_, rfl⟩⟩
  · have hb := waves_meshOf c k' 0
    simp only [u, u', hk]
    have : ¬ waves (meshOf c) 0 k' = 5 := fun h5 => by rw [h5] at hb; exact absurd hb (by decide)
    simp [this]
  · exact ne_of_eq_of_ne (if_pos (by decide)) one_ne_zero
  · have := congrFun e (fun i => ⟨if i = 0 then 5 else 0, by fin_cases i <;> decide⟩)
    rw [lowPass, if_neg (by decide)] at this
    exact one_ne_zero ((if_pos (by decide)).symm.trans this.symm)
  · by_cases hk : waves N 2 k = 0
    · simp [dot, at', Fin.sum_univ_three, u, scaledWaves, hk]
    · simp [dot, at', u, hk]

end SpectralDNS.Periodic

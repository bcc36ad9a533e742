import Verif.Lemmas.Symmetry

/-!
# C84: symmetries of the periodic solvers (over an abstract symmetry of the transforms)
-/

namespace SpectralDNS.Periodic

open Complex Spec

variable {d : ℕ} {ι X : Type*}

theorem project_D (K : Fin d → ι → ℝ) (G : SArr d ι) (i : Fin d) :
    (fun k => G i k - (∑ j, G j k * (K_over_K2 K j k : ℂ)) * K i k) = G i + D K i (inv2 K (∑ j, D K j (G j))) := by
  funext k
  have h : ((∑ j, D K j (G j)) k : ℂ) = I * ∑ j, (K j k : ℂ) * G j k := by
    rw [Finset.sum_apply, Finset.mul_sum]
    exact Finset.sum_congr rfl fun j _ => by simp only [D, Spec.deriv, LinearMap.coe_mk, AddHom.coe_mk]; ring
  have h2 : ∑ j, G j k * (K_over_K2 K j k : ℂ) = (∑ j, (K j k : ℂ) * G j k) / ((if K2 K k = 0 then 1 else K2 K k : ℝ) : ℂ) := by
    rw [Finset.sum_div]
    exact Finset.sum_congr rfl fun j _ => by rw [K_over_K2, ofReal_div]; ring
  have h3 : D K i (inv2 K (∑ j, D K j (G j))) k = I * K i k * (((∑ j, D K j (G j)) k : ℂ) / ((if K2 K k = 0 then 1 else K2 K k : ℝ) : ℂ)) := rfl
  rw [Pi.add_apply, h3, h, h2]
  linear_combination (K i k : ℂ) * ((∑ j, (K j k : ℂ) * G j k) / ((if K2 K k = 0 then 1 else K2 K k : ℝ) : ℂ)) * I_mul_I.symm

/-- The momentum right-hand side: without the gradient part, with viscosity and force. -/
noncomputable def momentum (K : Fin d → ι → ℝ) (nu : ℝ) (G u S : SArr d ι) : SArr d ι :=
  fun i => G i + D K i (inv2 K (∑ j, D K j (G j))) + nu • ∑ j, D K j (D K j (u i)) + S i

theorem momentum_apply (K : Fin d → ι → ℝ) (nu : ℝ) (G u S : SArr d ι) (i : Fin d) (k : ι) :
    momentum K nu G u S i k = G i k - (∑ j, G j k * (K_over_K2 K j k : ℂ)) * K i k - nu * K2 K k * u i k + S i k := by
  unfold momentum
  rw [← project_D, laplace_eq]
  simp only [Pi.add_apply, Pi.smul_apply, real_smul]
  ring

theorem rhsNS_D (c : Ctx d ι X) (conv : SArr d ι → SArr d ι → SArr d ι) (r u : SArr d ι) :
    rhsNS c conv r u = momentum c.K c.nu (fun i => keepL c.mask (conv r u i)) u c.Source := by
  funext i k
  rw [momentum_apply]
  simp only [rhsNS, ComputeRHS, add_pressure_diffusion, maskNyquist_keeps, keepL, LinearMap.coe_mk, AddHom.coe_mk, ofReal_mul]

section
variable {T : Space ι X} {K : Fin d → ι → ℝ} {mask : Option (ι → Bool)} {σ : (ι → ℂ) →ₗ[ℝ] (ι → ℂ)} {π : Equiv.Perm (Fin d)} {s : Fin d → ℤˣ}
variable (Sy : Symm T K mask σ π s) (H : Additive T)
include Sy

theorem momentum_turn (nu : ℝ) (G u S : SArr d ι) :
    momentum K nu (turn σ π s G) (turn σ π s u) (turn σ π s S) = turn σ π s (momentum K nu G u S) := by
  funext i
  unfold momentum
  rw [Sy.div_turn, Sy.inv2, Sy.D_σ]
  simp only [turn, LinearMap.coe_mk, AddHom.coe_mk, map_add, map_smul, smul_add, ← Finset.smul_sum]
  rw [Sy.laplace, smul_comm nu]

include H

theorem turn_advection (u : SArr d ι) (hu : ∀ i, Vanishes mask (u i)) (i : Fin d) :
    keepL mask (advection T.forward T.backward K (turn σ π s u) i) =
      turn σ π s (fun i => keepL mask (advection T.forward T.backward K u i)) i := by
  show _ = sgR (s i) • σ (keepL mask (advection T.forward T.backward K u (π i)))
  rw [keep_advection H, keep_advection H, map_sum, Finset.smul_sum, ← Equiv.sum_comp π fun j => sgR (s i) • σ _]
  refine Finset.sum_congr rfl fun j _ => ?_
  show pr T mask (sgR (s j) • σ (u (π j))) (D K j (sgR (s i) • σ (u (π i)))) = _
  rw [map_smul, Sy.D_σ]
  simp only [pr_sg_left H, pr_sg_right H, Sy.product _ _ (hu _) (vanishes_D (hu _) _ _)]
  simp only [smul_smul]
  congr 1
  linear_combination sgR (s i) * sgR_mul_self (s j)

theorem turn_divergenceForm (u : SArr d ι) (hu : ∀ i, Vanishes mask (u i)) (i : Fin d) :
    keepL mask (divergenceForm T.forward T.backward K (turn σ π s u) i) =
      turn σ π s (fun i => keepL mask (divergenceForm T.forward T.backward K u i)) i := by
  show _ = sgR (s i) • σ (keepL mask (divergenceForm T.forward T.backward K u (π i)))
  rw [keep_divergenceForm, keep_divergenceForm, map_sum, Finset.smul_sum, ← Equiv.sum_comp π fun j => sgR (s i) • σ _]
  refine Finset.sum_congr rfl fun j _ => ?_
  show D K j (pr T mask (sgR (s i) • σ (u (π i))) (sgR (s j) • σ (u (π j)))) = _
  simp only [pr_sg_left H, pr_sg_right H, Sy.product _ _ (hu _) (hu _), map_smul, Sy.D_σ]
  simp only [smul_smul]
  congr 1
  linear_combination sgR (s i) * sgR_mul_self (s j)

theorem turn_rot (u : SArr d ι) (hu : ∀ i, Vanishes mask (u i)) (i : Fin d) :
    ∑ j, (pr T mask (turn σ π s u j) (D K i (turn σ π s u j)) - pr T mask (turn σ π s u j) (D K j (turn σ π s u i))) =
      sgR (s i) • σ (∑ j, (pr T mask (u j) (D K (π i) (u j)) - pr T mask (u j) (D K j (u (π i))))) := by
  rw [map_sum, Finset.smul_sum, ← Equiv.sum_comp π fun j => sgR (s i) • σ _]
  refine Finset.sum_congr rfl fun j _ => ?_
  show pr T mask (sgR (s j) • σ (u (π j))) (D K i (sgR (s j) • σ (u (π j)))) - pr T mask (sgR (s j) • σ (u (π j))) (D K j (sgR (s i) • σ (u (π i)))) = _
  simp only [map_smul, Sy.D_σ, pr_sg_left H, pr_sg_right H, Sy.product _ _ (hu _) (vanishes_D (hu _) _ _), map_sub, smul_sub]
  simp only [smul_smul]
  congr 2
  · linear_combination sgR (s i) * sgR_mul_self (s j)
  · linear_combination sgR (s i) * sgR_mul_self (s j)

/-- The sign of the magnetic field can be chosen (`z`). -/
theorem turn_stressDiv (z : ℤˣ) (u b : SArr d ι) (hu : ∀ i, Vanishes mask (u i)) (hb : ∀ i, Vanishes mask (b i)) (i : Fin d) :
    keepL mask (stressDiv T.forward T.backward K (turn σ π s u) (sgR z • turn σ π s b) i) =
      turn σ π s (fun i => keepL mask (stressDiv T.forward T.backward K u b i)) i := by
  show _ = sgR (s i) • σ (keepL mask (stressDiv T.forward T.backward K u b (π i)))
  rw [keep_stressDiv H, keep_stressDiv H, map_sum, Finset.smul_sum, ← Equiv.sum_comp π fun j => sgR (s i) • σ _]
  refine Finset.sum_congr rfl fun j _ => ?_
  show D K j (pr T mask (sgR (s i) • σ (u (π i))) (sgR (s j) • σ (u (π j))) - pr T mask (sgR z • sgR (s i) • σ (b (π i))) (sgR z • sgR (s j) • σ (b (π j)))) = _
  simp only [pr_sg_left H, pr_sg_right H, Sy.product _ _ (hu _) (hu _), Sy.product _ _ (hb _) (hb _), map_smul, map_sub, Sy.D_σ, smul_sub]
  simp only [smul_smul]
  congr 2
  · linear_combination sgR (s i) * sgR_mul_self (s j)
  · linear_combination sgR (s i) * (sgR z * sgR z * sgR_mul_self (s j) + sgR_mul_self z)

theorem turn_induction (z : ℤˣ) (u b : SArr d ι) (hu : ∀ i, Vanishes mask (u i)) (hb : ∀ i, Vanishes mask (b i)) (i : Fin d) :
    keepL mask (Spec.induction T.forward T.backward K (turn σ π s u) (sgR z • turn σ π s b) i) =
      (sgR z • turn σ π s (fun i => keepL mask (Spec.induction T.forward T.backward K u b i))) i := by
  show _ = sgR z • sgR (s i) • σ (keepL mask (Spec.induction T.forward T.backward K u b (π i)))
  rw [keep_induction H, keep_induction H, map_sum, Finset.smul_sum, Finset.smul_sum, ← Equiv.sum_comp π fun j => sgR z • sgR (s i) • σ _]
  refine Finset.sum_congr rfl fun j _ => ?_
  show D K j (pr T mask (sgR z • sgR (s j) • σ (b (π j))) (sgR (s i) • σ (u (π i))) - pr T mask (sgR (s j) • σ (u (π j))) (sgR z • sgR (s i) • σ (b (π i)))) = _
  simp only [pr_sg_left H, pr_sg_right H, Sy.product _ _ (hu _) (hb _), Sy.product _ _ (hb _) (hu _), map_smul, map_sub, Sy.D_σ, smul_sub]
  simp only [smul_smul]
  congr 2
  · linear_combination sgR z * sgR (s i) * sgR_mul_self (s j)
  · linear_combination sgR z * sgR (s i) * sgR_mul_self (s j)

theorem turn_fluxDiv (z : ℤˣ) (u : SArr d ι) (rho : ι → ℂ) (hu : ∀ i, Vanishes mask (u i)) (hr : Vanishes mask rho) :
    keepL mask (fluxDiv T.forward T.backward K (turn σ π s u) (sgR z • σ rho)) = sgR z • σ (keepL mask (fluxDiv T.forward T.backward K u rho)) := by
  rw [keep_fluxDiv, keep_fluxDiv, map_sum, Finset.smul_sum, ← Equiv.sum_comp π fun j => sgR z • σ _]
  refine Finset.sum_congr rfl fun j _ => ?_
  show D K j (pr T mask (sgR (s j) • σ (u (π j))) (sgR z • σ rho)) = _
  simp only [pr_sg_left H, pr_sg_right H, Sy.product _ _ (hu _) hr, map_smul, Sy.D_σ]
  simp only [smul_smul]
  congr 1
  linear_combination sgR z * sgR_mul_self (s j)

end

theorem turn_lamb {T : Space ι X} {K : Fin 3 → ι → ℝ} {mask : Option (ι → Bool)} {σ : (ι → ℂ) →ₗ[ℝ] (ι → ℂ)} {π : Equiv.Perm (Fin 3)}
    {s : Fin 3 → ℤˣ} (Sy : Symm T K mask σ π s) (H : Additive T) (u : SArr 3 ι) (hu : ∀ i, Vanishes mask (u i)) (i : Fin 3) :
    keepL mask (lamb T.forward T.backward K (turn σ π s u) i) = turn σ π s (fun i => keepL mask (lamb T.forward T.backward K u i)) i := by
  show _ = sgR (s i) • σ (keepL mask (lamb T.forward T.backward K u (π i)))
  rw [keep_lamb H, keep_lamb H, turn_rot Sy H u hu]

theorem turn_lamb2 {T : Space ι X} {K : Fin 2 → ι → ℝ} {mask : Option (ι → Bool)} {σ : (ι → ℂ) →ₗ[ℝ] (ι → ℂ)} {π : Equiv.Perm (Fin 2)}
    {s : Fin 2 → ℤˣ} (Sy : Symm T K mask σ π s) (H : Additive T) (u : SArr 2 ι) (hu : ∀ i, Vanishes mask (u i)) (i : Fin 2) :
    keepL mask (lamb2 T.forward T.backward K (turn σ π s u) i) = turn σ π s (fun i => keepL mask (lamb2 T.forward T.backward K u i)) i := by
  show _ = sgR (s i) • σ (keepL mask (lamb2 T.forward T.backward K u (π i)))
  rw [keep_lamb2 H, keep_lamb2 H, turn_rot Sy H u hu]

/-! ## The right-hand sides -/

theorem turn_conv {T : Space ι X} {K : Fin 3 → ι → ℝ} {mask : Option (ι → Bool)} {σ : (ι → ℂ) →ₗ[ℝ] (ι → ℂ)} {π : Equiv.Perm (Fin 3)}
    {s : Fin 3 → ℤˣ} (Sy : Symm T K mask σ π s) (H : Additive T) (name : String) (conv)
    (hname : (getConvection name : Option (Scratch 3 ι X → SArr 3 ι → SArr 3 ι → Space ι X → (Fin 3 → ι → ℝ) → SArr 3 ι)) = some conv)
    (w w' : Scratch 3 ι X) (r r' u : SArr 3 ι) (hu : ∀ i, Vanishes mask (u i)) :
    (fun i => keepL mask (conv w' r' (turn σ π s u) T K i)) = turn σ π s fun i => keepL mask (conv w r u T K i) := by
  have hf := C06_convection_forms (ι := ι) (X := X) name
  rw [hname] at hf
  have hn : ∀ F : SArr 3 ι → SArr 3 ι, (∀ i, keepL mask (F (turn σ π s u) i) = turn σ π s (fun i => keepL mask (F u i)) i) →
      ∀ a : ℝ, (fun i => keepL mask (a • F (turn σ π s u) i)) = turn σ π s fun i => keepL mask (a • F u i) := fun F h a => by
    funext i
    rw [map_smul, h i]
    show a • sgR (s i) • σ _ = sgR (s i) • σ (keepL mask (a • F u (π i)))
    rw [map_smul, map_smul, smul_comm]
  have ha := turn_advection Sy H u hu
  have hd := turn_divergenceForm Sy H u hu
  have hl := turn_lamb Sy H u hu
  have key : ∃ (F : SArr 3 ι → SArr 3 ι) (a : ℝ), (∀ w r u, conv w r u T K = fun i => a • F u i) ∧
      ∀ i, keepL mask (F (turn σ π s u) i) = turn σ π s (fun i => keepL mask (F u i)) i := by
    by_cases h1 : name = "Standard"
    · refine ⟨advection T.forward T.backward K, -1, fun w r u => ?_, ha⟩
      funext i k
      rcases hf w r u T K i k with ⟨_, e⟩ | ⟨e, _⟩ | ⟨e, _⟩ | ⟨e, _⟩
      · simp [e]
      all_goals exact absurd (h1.symm.trans e) (by decide)
    by_cases h2 : name = "Divergence"
    · refine ⟨divergenceForm T.forward T.backward K, -1, fun w r u => ?_, hd⟩
      funext i k
      rcases hf w r u T K i k with ⟨e, _⟩ | ⟨_, e⟩ | ⟨e, _⟩ | ⟨e, _⟩
      · exact absurd (h2.symm.trans e) (by decide)
      · simp [e]
      all_goals exact absurd (h2.symm.trans e) (by decide)
    by_cases h3 : name = "Skewed"
    · refine ⟨fun u => advection T.forward T.backward K u + divergenceForm T.forward T.backward K u, -1 / 2, fun w r u => ?_, fun i => ?_⟩
      · funext i k
        rcases hf w r u T K i k with ⟨e, _⟩ | ⟨e, _⟩ | ⟨_, e⟩ | ⟨e, _⟩
        · exact absurd (h3.symm.trans e) (by decide)
        · exact absurd (h3.symm.trans e) (by decide)
        · simp [e]; ring
        · exact absurd (h3.symm.trans e) (by decide)
      · simp only [Pi.add_apply, map_add]
        rw [ha, hd]
        exact (congrFun (map_add (turn σ π s) (fun i => keepL mask (advection T.forward T.backward K u i))
          (fun i => keepL mask (divergenceForm T.forward T.backward K u i))) i).symm
    · refine ⟨lamb T.forward T.backward K, 1, fun w r u => ?_, hl⟩
      funext i k
      rcases hf w r u T K i k with ⟨e, _⟩ | ⟨e, _⟩ | ⟨e, _⟩ | ⟨_, e⟩
      · exact absurd e h1
      · exact absurd e h2
      · exact absurd e h3
      · simp [e]
  obtain ⟨F, a, h1, h2⟩ := key
  simp only [h1]
  exact hn F h2 a

theorem rhsNS_turn (c c' : Ctx d ι X) {σ : (ι → ℂ) →ₗ[ℝ] (ι → ℂ)} {π : Equiv.Perm (Fin d)} {s : Fin d → ℤˣ} (Sy : Symm c.Tp c.K c.mask σ π s)
    (hK : c'.K = c.K) (hnu : c'.nu = c.nu) (hm : c'.mask = c.mask) (hS : c'.Source = turn σ π s c.Source)
    (conv conv' : SArr d ι → SArr d ι → SArr d ι) (r r' u : SArr d ι)
    (h : (fun i => keepL c.mask (conv' r' (turn σ π s u) i)) = turn σ π s fun i => keepL c.mask (conv r u i)) :
    rhsNS c' conv' r' (turn σ π s u) = turn σ π s (rhsNS c conv r u) := by
  rw [rhsNS_D, rhsNS_D, hK, hnu, hm, hS, h, momentum_turn Sy]

theorem rhsMHD_D (c : Ctx 3 ι X) (eta : ℝ) (conv : SArr 3 ι × SArr 3 ι → SArr 3 ι × SArr 3 ι → SArr 3 ι × SArr 3 ι) (r ub : SArr 3 ι × SArr 3 ι) :
    rhsMHD c eta conv r ub = (momentum c.K c.nu (fun i => keepL c.mask ((conv r ub).1 i)) ub.1 0,
      fun i => keepL c.mask ((conv r ub).2 i) + eta • ∑ j, D c.K j (D c.K j (ub.2 i))) := by
  refine Prod.ext ?_ ?_
  · funext i k
    dsimp only
    rw [momentum_apply]
    simp only [rhsMHD, add_pressure_diffusionMHD, maskNyquist_keeps, keepL, LinearMap.coe_mk, AddHom.coe_mk,
      ofReal_mul, Pi.zero_apply, add_zero]
  · funext i k
    simp only [laplace_eq, rhsMHD, add_pressure_diffusionMHD, maskNyquist_keeps, Pi.add_apply, Pi.smul_apply, real_smul, keepL, LinearMap.coe_mk, AddHom.coe_mk,
      ofReal_mul]
    ring

theorem rhsBq_D (c : Ctx 2 ι X) (Ri Pr : ℝ) (conv : SArr 2 ι × (ι → ℂ) → SArr 2 ι × (ι → ℂ) → SArr 2 ι × (ι → ℂ)) (r ur : SArr 2 ι × (ι → ℂ)) :
    rhsBq c Ri Pr conv r ur = (momentum c.K c.nu (fun i => keepL c.mask ((conv r ur).1 i) + if i = 1 then -Ri • ur.2 else 0) ur.1 0,
      keepL c.mask (conv r ur).2 + (c.nu / Pr) • ∑ j, D c.K j (D c.K j ur.2)) := by
  refine Prod.ext ?_ ?_
  · funext i k
    dsimp only
    rw [momentum_apply]
    by_cases hk : keeps c.mask k = true
    · fin_cases i <;> simp only [rhsBq, add_pressure_diffusionBq, maskNyquist_keeps, Fin.sum_univ_two, keepL, Function.update, hk, LinearMap.coe_mk,
        AddHom.coe_mk, if_true, Fin.zero_eta, Fin.mk_one, Pi.add_apply, Pi.zero_apply] <;> simp [hk] <;> ring_nf <;> simp
    · fin_cases i <;> simp only [rhsBq, add_pressure_diffusionBq, maskNyquist_keeps, Fin.sum_univ_two, keepL, Function.update, hk, LinearMap.coe_mk,
        AddHom.coe_mk, Fin.zero_eta, Fin.mk_one, Pi.add_apply, Pi.zero_apply] <;> simp [hk] <;> ring_nf <;> simp
  · funext k
    simp only [laplace_eq, rhsBq, add_pressure_diffusionBq, maskNyquist_keeps, Pi.add_apply, Pi.smul_apply, real_smul, keepL, LinearMap.coe_mk, AddHom.coe_mk,
      ofReal_mul, ofReal_div]
    ring

/-! ## Curls: vorticity changes sign under reflections -/

/-- The determinant of the motion. -/
def detOf (π : Equiv.Perm (Fin 3)) (s : Fin 3 → ℤˣ) : ℤˣ := Equiv.Perm.sign π * ∏ i, s i

theorem perm3 : ∀ (π : Equiv.Perm (Fin 3)) (i : Fin 3), (Equiv.Perm.sign π = 1 ∧ π (i + 1) = π i + 1 ∧ π (i + 2) = π i + 2) ∨
    (Equiv.Perm.sign π = -1 ∧ π (i + 1) = π i + 2 ∧ π (i + 2) = π i + 1) := by decide

theorem sgR_mul (y z : ℤˣ) : sgR (y * z) = sgR y * sgR z := by simp [sgR]

theorem det_mul (π : Equiv.Perm (Fin 3)) (s : Fin 3 → ℤˣ) (i : Fin 3) :
    sgR (s (i + 1)) * sgR (s (i + 2)) = sgR (detOf π s) * sgR (Equiv.Perm.sign π) * sgR (s i) := by
  have h : sgR (s 0) * sgR (s 0) = 1 ∧ sgR (s 1) * sgR (s 1) = 1 ∧ sgR (s 2) * sgR (s 2) = 1 := ⟨sgR_mul_self _, sgR_mul_self _, sgR_mul_self _⟩
  have hp := sgR_mul_self (Equiv.Perm.sign π)
  obtain ⟨h1, h2, h3, h4, h5, h6⟩ := fin3_add
  rw [detOf, Fin.prod_univ_three, sgR_mul, sgR_mul, sgR_mul]
  fin_cases i <;> simp only [Fin.zero_eta, Fin.mk_one, Fin.reduceFinMk, h1, h2, h3, h4, h5, h6]
  · linear_combination -(sgR (s 0) * sgR (s 0)) * sgR (s 1) * sgR (s 2) * hp - sgR (s 1) * sgR (s 2) * h.1
  · linear_combination -(sgR (s 1) * sgR (s 1)) * sgR (s 2) * sgR (s 0) * hp - sgR (s 2) * sgR (s 0) * h.2.1
  · linear_combination -(sgR (s 2) * sgR (s 2)) * sgR (s 0) * sgR (s 1) * hp - sgR (s 0) * sgR (s 1) * h.2.2

/-- An antisymmetric expression turns like a vector, up to the determinant. -/
theorem turn_antisymm (σ : (ι → ℂ) →ₗ[ℝ] (ι → ℂ)) (π : Equiv.Perm (Fin 3)) (s : Fin 3 → ℤˣ) (A A' : Fin 3 → Fin 3 → ι → ℂ)
    (hA : ∀ a b, A b a = -A a b) (h : ∀ a b, A' a b = (sgR (s a) * sgR (s b)) • σ (A (π a) (π b))) (i : Fin 3) :
    A' (i + 1) (i + 2) = sgR (detOf π s) • turn σ π s (fun i => A (i + 1) (i + 2)) i := by
  show _ = sgR (detOf π s) • sgR (s i) • σ (A (π i + 1) (π i + 2))
  rw [h, det_mul π s i, smul_smul]
  rcases perm3 π i with ⟨e, e1, e2⟩ | ⟨e, e1, e2⟩
  · rw [e1, e2, e]; simp [sgR]
  · rw [e1, e2, e, hA (π i + 1) (π i + 2), map_neg]; simp [sgR]

theorem curl_D (K : Fin 3 → ι → ℝ) (u : SArr 3 ι) (i : Fin 3) : curl K u i = D K (i + 1) (u (i + 2)) - D K (i + 2) (u (i + 1)) := by
  funext k; simp only [curl, cross, D, Spec.deriv, Pi.sub_apply, LinearMap.coe_mk, AddHom.coe_mk]; ring

theorem curl_turn {T : Space ι X} {K : Fin 3 → ι → ℝ} {mask : Option (ι → Bool)} {σ : (ι → ℂ) →ₗ[ℝ] (ι → ℂ)} {π : Equiv.Perm (Fin 3)}
    {s : Fin 3 → ℤˣ} (Sy : Symm T K mask σ π s) (u : SArr 3 ι) : curl K (turn σ π s u) = sgR (detOf π s) • turn σ π s (curl K u) := by
  funext i
  rw [curl_D]
  refine (turn_antisymm σ π s (fun a b => D K a (u b) - D K b (u a)) (fun a b => D K a (turn σ π s u b) - D K b (turn σ π s u a))
    (fun a b => by simp) (fun a b => ?_) i).trans ?_
  · show D K a (sgR (s b) • σ (u (π b))) - D K b (sgR (s a) • σ (u (π a))) = _
    rw [map_smul, map_smul, Sy.D_σ, Sy.D_σ, map_sub, smul_sub, smul_smul, smul_smul, mul_comm (sgR (s b))]
  · rw [show (fun i => D K (i + 1) (u (i + 2)) - D K (i + 2) (u (i + 1))) = curl K u from funext fun i => (curl_D K u i).symm]
    rfl

theorem curl_smul (K : Fin 3 → ι → ℝ) (r : ℝ) (u : SArr 3 ι) : curl K (r • u) = r • curl K u := by
  have := curl_linear K r 0 u 0
  simpa using this

theorem velocityHat_inv2 (w0 : SArr 3 ι) (K : Fin 3 → ι → ℝ) (w : SArr 3 ι) : velocityHat w0 w (K_over_K2 K) = fun i => inv2 K (curl K w i) := by
  funext i k
  rw [velocityHat, cross2_3d_eq]
  simp only [curl, cross, inv2, K_over_K2, ofReal_div]
  ring

theorem inv2_smul (K : Fin d → ι → ℝ) (r : ℝ) (a : ι → ℂ) : inv2 K (r • a) = r • inv2 K a := by
  funext k; simp only [inv2, Pi.smul_apply, real_smul]; ring

theorem velocityHat_turn {T : Space ι X} {K : Fin 3 → ι → ℝ} {mask : Option (ι → Bool)} {σ : (ι → ℂ) →ₗ[ℝ] (ι → ℂ)} {π : Equiv.Perm (Fin 3)}
    {s : Fin 3 → ℤˣ} (Sy : Symm T K mask σ π s) (w0 w1 w : SArr 3 ι) :
    velocityHat w0 (sgR (detOf π s) • turn σ π s w) (K_over_K2 K) = turn σ π s (velocityHat w1 w (K_over_K2 K)) := by
  rw [velocityHat_inv2, velocityHat_inv2, curl_smul, curl_turn Sy, smul_smul, sgR_mul_self, one_smul]
  funext i
  show inv2 K (sgR (s i) • σ (curl K w (π i))) = sgR (s i) • σ (inv2 K (curl K w (π i)))
  rw [inv2_smul, Sy.inv2]

theorem rhsVV_D (c : Ctx 3 ι X) (H : Additive c.Tp) (w0 : Scratch 3 ι X) (r w : SArr 3 ι) :
    rhsVV c w0 r w = curl c.K (fun i => pr c.Tp c.mask (velocityHat w0.cplx0 w (K_over_K2 c.K) (i + 1)) (w (i + 2)) -
        pr c.Tp c.mask (velocityHat w0.cplx0 w (K_over_K2 c.K) (i + 2)) (w (i + 1))) +
      (c.nu • fun i => ∑ j, D c.K j (D c.K j (w i))) + c.Source := by
  funext i k
  have h : (fun i => pr c.Tp c.mask (velocityHat w0.cplx0 w (K_over_K2 c.K) (i + 1)) (w (i + 2)) -
        pr c.Tp c.mask (velocityHat w0.cplx0 w (K_over_K2 c.K) (i + 2)) (w (i + 1))) =
      fun i => keepL c.mask (c.Tp.forward fun x => cross (fun j => c.Tp.backward (velocityHat w0.cplx0 w (K_over_K2 c.K) j) x)
        (fun j => c.Tp.backward (w j) x) i) := by
    funext i
    simp only [cross]
    rw [H.forward_sub, map_sub]
    rfl
  rw [h]
  simp only [laplace_eq, rhsVV, add_linear, maskNyquist_keeps, convVV, cross2_3d_eq, Cross, cross1_3d_eq, compute_velocity, Pi.add_apply, Pi.smul_apply, real_smul,
    ofReal_mul, curl, cross, keepL, LinearMap.coe_mk, AddHom.coe_mk, Space.vforward, Space.vbackward, Pi.sub_apply, Pi.mul_apply]
  by_cases hk : keeps c.mask k = true
  · simp only [hk, if_true]
    have e : ∀ j, (fun i => c.Tp.backward (velocityHat w0.cplx0 w (K_over_K2 c.K) i)) (j + 1) * (fun i => c.Tp.backward (w i)) (j + 2) -
      (fun i => c.Tp.backward (velocityHat w0.cplx0 w (K_over_K2 c.K) i)) (j + 2) * (fun i => c.Tp.backward (w i)) (j + 1) =
      fun x => c.Tp.backward (velocityHat w0.cplx0 w (K_over_K2 c.K) (j + 1)) x * c.Tp.backward (w (j + 2)) x -
      c.Tp.backward (velocityHat w0.cplx0 w (K_over_K2 c.K) (j + 2)) x * c.Tp.backward (w (j + 1)) x := fun j => rfl
    simp only [e]
    ring
  · simp only [hk]
    simp [mul_assoc]

theorem rhsVV_turn (c c' : Ctx 3 ι X) (H : Additive c.Tp) {σ : (ι → ℂ) →ₗ[ℝ] (ι → ℂ)} {π : Equiv.Perm (Fin 3)} {s : Fin 3 → ℤˣ}
    (Sy : Symm c.Tp c.K c.mask σ π s) (hT : c'.Tp = c.Tp) (hK : c'.K = c.K) (hnu : c'.nu = c.nu) (hm : c'.mask = c.mask)
    (hS : c'.Source = sgR (detOf π s) • turn σ π s c.Source) (w0 w1 : Scratch 3 ι X) (r r' w : SArr 3 ι) (hw : ∀ i, Vanishes c.mask (w i)) :
    rhsVV c' w1 r' (sgR (detOf π s) • turn σ π s w) = sgR (detOf π s) • turn σ π s (rhsVV c w0 r w) := by
  have hv : ∀ i, Vanishes c.mask (velocityHat w0.cplx0 w (K_over_K2 c.K) i) := fun i k hk => by
    rw [velocityHat_inv2]; simp [inv2, curl, cross, hw _ k hk]
  rw [rhsVV_D c' (hT ▸ H), rhsVV_D c H, hT, hK, hnu, hm, hS, velocityHat_turn Sy _ w0.cplx0, map_add, map_add, smul_add, smul_add]
  congr 2
  · rw [← curl_turn Sy]
    congr 1
    funext i
    set v := velocityHat w0.cplx0 w (K_over_K2 c.K)
    have e := turn_antisymm σ π s (fun a b => pr c.Tp c.mask (v a) (w b) - pr c.Tp c.mask (v b) (w a))
      (fun a b => pr c.Tp c.mask (turn σ π s v a) ((turn σ π s w) b) - pr c.Tp c.mask (turn σ π s v b) ((turn σ π s w) a))
      (fun a b => by simp) (fun a b => ?_) i
    · show pr c.Tp c.mask (turn σ π s v (i + 1)) (sgR (detOf π s) • turn σ π s w (i + 2)) -
        pr c.Tp c.mask (turn σ π s v (i + 2)) (sgR (detOf π s) • turn σ π s w (i + 1)) = _
      rw [pr_sg_right H, pr_sg_right H, ← smul_sub, e, smul_smul, sgR_mul_self, one_smul]
    · show pr c.Tp c.mask (sgR (s a) • σ (v (π a))) (sgR (s b) • σ (w (π b))) -
        pr c.Tp c.mask (sgR (s b) • σ (v (π b))) (sgR (s a) • σ (w (π a))) = _
      rw [pr_sg H, pr_sg H, Sy.product _ _ (hv _) (hw _), Sy.product _ _ (hv _) (hw _), map_sub, smul_sub, mul_comm (sgR (s b))]
  · rw [map_smul, smul_comm]
    congr 1
    funext i
    show ∑ j, D c.K j (D c.K j (sgR (detOf π s) • sgR (s i) • σ (w (π i)))) = sgR (detOf π s) • sgR (s i) • σ (∑ j, D c.K j (D c.K j (w (π i))))
    simp only [map_smul, ← Finset.smul_sum]
    rw [Sy.laplace]

theorem rhsMHD_turn (c : Ctx 3 ι X) (eta : ℝ) (H : Additive c.Tp) {σ : (ι → ℂ) →ₗ[ℝ] (ι → ℂ)} {π : Equiv.Perm (Fin 3)} {s : Fin 3 → ℤˣ} (z : ℤˣ)
    (Sy : Symm c.Tp c.K c.mask σ π s) (r r' : SArr 3 ι × SArr 3 ι) (u b : SArr 3 ι) (hu : ∀ i, Vanishes c.mask (u i)) (hb : ∀ i, Vanishes c.mask (b i)) :
    rhsMHD c eta (fun _ ub => convMHD ub c.Tp c.K) r' (turn σ π s u, sgR z • turn σ π s b) =
      (turn σ π s (rhsMHD c eta (fun _ ub => convMHD ub c.Tp c.K) r (u, b)).1, sgR z • turn σ π s (rhsMHD c eta (fun _ ub => convMHD ub c.Tp c.K) r (u, b)).2) := by
  rw [rhsMHD_D, rhsMHD_D]
  simp only [convMHD_eq c.Tp H]
  refine Prod.ext ?_ ?_
  · dsimp only
    rw [← momentum_turn Sy, map_zero]
    congr 1
    funext i
    have e := congrArg (fun a => -a) (turn_stressDiv Sy H z u b hu hb i)
    beta_reduce at e
    rw [← map_neg] at e
    refine e.trans ?_
    show -(sgR (s i) • σ (keepL c.mask (stressDiv c.Tp.forward c.Tp.backward c.K u b (π i)))) =
      sgR (s i) • σ (keepL c.mask (-stressDiv c.Tp.forward c.Tp.backward c.K u b (π i)))
    rw [map_neg, map_neg, smul_neg]
  · funext i
    have e := turn_induction Sy H z u b hu hb i
    dsimp only
    refine Eq.trans (congrArg₂ (· + ·) e ?_ : _ = (sgR z • turn σ π s (fun i => keepL c.mask (Spec.induction c.Tp.forward c.Tp.backward c.K u b i))) i +
      (sgR z • turn σ π s (fun i => eta • ∑ j, D c.K j (D c.K j (b i)))) i) ?_
    · show eta • ∑ j, D c.K j (D c.K j (sgR z • sgR (s i) • σ (b (π i)))) = sgR z • sgR (s i) • σ (eta • ∑ j, D c.K j (D c.K j (b (π i))))
      simp only [map_smul, ← Finset.smul_sum]
      rw [Sy.laplace, smul_comm eta, smul_comm eta]
    · rw [← Pi.add_apply, ← smul_add, ← map_add]
      rfl

/-- Stratified flow: the vertical axis stays in place, and the density changes sign with it. -/
theorem rhsBq_turn (c : Ctx 2 ι X) (Ri Pr : ℝ) (H : Additive c.Tp) {σ : (ι → ℂ) →ₗ[ℝ] (ι → ℂ)} {s : Fin 2 → ℤˣ}
    (Sy : Symm c.Tp c.K c.mask σ 1 s) (w w' : SArr 2 ι) (r r' : SArr 2 ι × (ι → ℂ)) (u : SArr 2 ι) (rho : ι → ℂ) (hu : ∀ i, Vanishes c.mask (u i))
    (hr : Vanishes c.mask rho) :
    rhsBq c Ri Pr (fun r ur => convBq w' r ur c.Tp c.K) r' (turn σ 1 s u, sgR (s 1) • σ rho) =
      (turn σ 1 s (rhsBq c Ri Pr (fun r ur => convBq w r ur c.Tp c.K) r (u, rho)).1,
        sgR (s 1) • σ (rhsBq c Ri Pr (fun r ur => convBq w r ur c.Tp c.K) r (u, rho)).2) := by
  rw [rhsBq_D, rhsBq_D]
  simp only [convBq_eq]
  refine Prod.ext ?_ ?_
  · dsimp only
    rw [← momentum_turn Sy, map_zero]
    congr 1
    funext i
    have e := turn_lamb2 Sy H u hu i
    rw [e]
    show sgR (s i) • σ (keepL c.mask (lamb2 c.Tp.forward c.Tp.backward c.K u i)) + _ = sgR (s i) • σ (keepL c.mask (lamb2 c.Tp.forward c.Tp.backward c.K u i) + if i = 1 then -Ri • rho else 0)
    rw [map_add, smul_add]
    congr 1
    fin_cases i
    · simp
    · show -Ri • sgR (s 1) • σ rho = sgR (s 1) • σ (-Ri • rho)
      rw [map_smul, smul_comm]
  · dsimp only
    have e := congrArg (fun a => -a) (turn_fluxDiv Sy H (s 1) u rho hu hr)
    beta_reduce at e
    rw [← map_neg, ← smul_neg, ← map_neg, ← map_neg] at e
    refine (congrArg₂ (· + ·) e ?_).trans (?_ : sgR (s 1) • σ (keepL c.mask (-fluxDiv c.Tp.forward c.Tp.backward c.K u rho)) +
      sgR (s 1) • σ ((c.nu / Pr) • ∑ j, D c.K j (D c.K j rho)) = _)
    · simp only [map_smul, ← Finset.smul_sum]
      rw [Sy.laplace, smul_comm]
    · rw [← smul_add, ← map_add]
      rfl

end SpectralDNS.Periodic

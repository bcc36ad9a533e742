import Verif.Props.Converge

/-!
# C92: the semi-discrete equations of the periodic solvers have one solution for all times
-/

namespace SpectralDNS.Periodic

open Complex Spec

variable {d : ℕ} {ι X : Type*} [Fintype ι] [Fintype X]

omit [Fintype ι] [Fintype X] in
theorem LinearSpace.additive {T : Space ι X} (H : LinearSpace T) : Additive T := by
  obtain ⟨⟨A, hA⟩, ⟨B, hB⟩⟩ := H
  refine ⟨fun f g => ?_, fun a b => ?_⟩
  · have := A.map_add f g
    rw [← hA, ← hA, ← hA] at this
    exact this
  · have := B.map_add a b
    rw [← hB, ← hB, ← hB] at this
    exact this

/-- `Spec.inner` as a bilinear form. -/
noncomputable def innerForm (w : ι → ℝ) : (ι → ℂ) →ₗ[ℝ] (ι → ℂ) →ₗ[ℝ] ℝ :=
  LinearMap.mk₂ ℝ (Spec.inner w)
    (fun a b c => by rw [inner_symm, inner_symm w a, inner_symm w b]; exact inner_add_right w c a b)
    (fun r a b => by
      simp only [Spec.inner, Pi.smul_apply, real_smul, map_mul, conj_ofReal, smul_eq_mul, Finset.mul_sum]
      exact Finset.sum_congr rfl fun k _ => by rw [mul_assoc, re_ofReal_mul]; ring)
    (fun a b c => inner_add_right w a b c)
    (fun r a b => by
      simp only [Spec.inner, Pi.smul_apply, real_smul, smul_eq_mul, Finset.mul_sum]
      exact Finset.sum_congr rfl fun k _ => by rw [mul_left_comm ((starRingEnd ℂ) (a k)), re_ofReal_mul]; ring)

theorem inner_self (w : ι → ℝ) (a : ι → ℂ) : Spec.inner w a a = ∑ k, w k * Complex.normSq (a k) :=
  Finset.sum_congr rfl fun k _ => by rw [← Complex.normSq_eq_conj_mul_self, ofReal_re]

theorem inner_self_nonneg {w : ι → ℝ} (hw : ∀ k, 0 < w k) (a : ι → ℂ) : 0 ≤ Spec.inner w a a := by
  rw [inner_self]
  exact Finset.sum_nonneg fun k _ => mul_nonneg (hw k).le (Complex.normSq_nonneg _)

theorem inner_self_pos {w : ι → ℝ} (hw : ∀ k, 0 < w k) (a : ι → ℂ) (ha : a ≠ 0) : 0 < Spec.inner w a a := by
  obtain ⟨k, hk⟩ := Function.ne_iff.1 ha
  rw [inner_self]
  exact Finset.sum_pos' (fun k _ => mul_nonneg (hw k).le (Complex.normSq_nonneg _)) ⟨k, Finset.mem_univ k, mul_pos (hw k) (Complex.normSq_pos.2 hk)⟩

/-- `Spec.power` as a bilinear form. -/
noncomputable def powerForm (w : ι → ℝ) : SArr d ι →ₗ[ℝ] SArr d ι →ₗ[ℝ] ℝ :=
  ∑ i, (innerForm w).compl₁₂ (LinearMap.proj i) (LinearMap.proj i)

theorem powerForm_apply (w : ι → ℝ) (u v : SArr d ι) : powerForm w u v = power w u v := by
  rw [power_inner, powerForm, LinearMap.sum_apply, LinearMap.sum_apply]
  rfl

theorem power_symm (w : ι → ℝ) (u v : SArr d ι) : power w u v = power w v u :=
  Finset.sum_congr rfl fun i _ => inner_symm w (u i) (v i)

theorem power_self_nonneg {w : ι → ℝ} (hw : ∀ k, 0 < w k) (u : SArr d ι) : 0 ≤ power w u u :=
  Finset.sum_nonneg fun i _ => inner_self_nonneg hw (u i)

theorem power_self_pos {w : ι → ℝ} (hw : ∀ k, 0 < w k) (u : SArr d ι) (hu : u ≠ 0) : 0 < power w u u := by
  obtain ⟨i, hi⟩ := Function.ne_iff.1 hu
  exact Finset.sum_pos' (fun i _ => inner_self_nonneg hw (u i)) ⟨i, Finset.mem_univ i, inner_self_pos hw (u i) hi⟩

omit [Fintype ι] [Fintype X] in
/-- Coefficients that vanish on masked modes. -/
def maskedSpace (mask : Option (ι → Bool)) : Submodule ℝ (ι → ℂ) where
  carrier := {a | Vanishes mask a}
  add_mem' := by intro a b ha hb k hk; simp [ha k hk, hb k hk]
  zero_mem' := fun _ _ => rfl
  smul_mem' := by intro r a ha k hk; simp [ha k hk]

omit [Fintype ι] [Fintype X] in
/-- Divergence-free velocities that vanish on masked modes. -/
noncomputable def admissible (K : Fin d → ι → ℝ) (mask : Option (ι → Bool)) : Submodule ℝ (SArr d ι) :=
  Spec.solenoidal K ⊓ ⨅ i, (maskedSpace mask).comap (LinearMap.proj i)

omit [Fintype ι] [Fintype X] in
theorem mem_admissible {K : Fin d → ι → ℝ} {mask : Option (ι → Bool)} {u : SArr d ι} :
    u ∈ admissible K mask ↔ Solenoidal K u ∧ ∀ i, Vanishes mask (u i) := by
  simp only [admissible, Submodule.mem_inf, Submodule.mem_iInf]
  rfl

/-- A solution on `t >= 0` has a two-sided derivative at positive times. -/
theorem solves_hasDerivAt {E : Type*} [NormedAddCommGroup E] [NormedSpace ℝ E] {f : E → E} {y : ℝ → E} (h : Solves f y) {t : ℝ} (ht : 0 < t) :
    HasDerivAt y (f (y t)) t := (h t ht.le).hasDerivAt (Ici_mem_nhds ht)

/-- Uniqueness in the form used below. -/
theorem solves_unique {E : Type*} [NormedAddCommGroup E] [NormedSpace ℝ E] [FiniteDimensional ℝ E] {f : E → E} (hf : IsQuad f) {U : ℝ → E}
    (hU : Solves f U) (T : ℝ) (V : ℝ → E) (hV : SolvesOn f T V) (h0 : V 0 = U 0) : ∀ t ∈ Set.Icc 0 T, V t = U t :=
  fun _ ht => SolvesOn.unique hf.field hV (hU.on T) h0 ht

/-- The right-hand side of NS and NS2D keeps admissible velocities admissible. -/
theorem rhsNS_admissible (c : Ctx d ι X) (conv : SArr d ι → SArr d ι → SArr d ι) (rhs : SArr d ι) (hs : Solenoidal c.K c.Source)
    (hsm : ∀ i, Vanishes c.mask (c.Source i)) (u : SArr d ι) (hu : u ∈ admissible c.K c.mask) : rhsNS c conv rhs u ∈ admissible c.K c.mask := by
  obtain ⟨h1, h2⟩ := mem_admissible.1 hu
  refine mem_admissible.2 ⟨fun k => ?_, fun i k hk => ?_⟩
  · rw [C01_rhs_divergence, hs k, h1 k]; ring
  · simp [rhsNS, ComputeRHS, add_pressure_diffusion, maskNyquist_keeps, hk, hsm i k hk, h2 i k hk]

/-- Global solutions of NS-like equations whose convection does no work. -/
theorem ns_global (c : Ctx d ι X) (w : ι → ℝ) (hw : ∀ k, 0 < w k) (hnu : 0 ≤ c.nu) (hs : Solenoidal c.K c.Source)
    (hsm : ∀ i, Vanishes c.mask (c.Source i)) (conv : SArr d ι → SArr d ι → SArr d ι) (rhs : SArr d ι)
    (hq : IsQuad (rhsNS c conv rhs)) (hc : ∀ u, Solenoidal c.K u → (∀ i, Vanishes c.mask (u i)) → power w u (conv rhs u) = 0)
    (u0 : SArr d ι) (h0 : Solenoidal c.K u0) (hm : ∀ i, Vanishes c.mask (u0 i)) :
    ∃ U : ℝ → SArr d ι, U 0 = u0 ∧ Solves (rhsNS c conv rhs) U ∧ (∀ t, Solenoidal c.K (U t) ∧ ∀ i, Vanishes c.mask (U t i)) ∧
      (∀ t, 0 < t → HasDerivAt (fun s => energy w (U s)) (-c.nu * dissipation w c.K (U t) + power w (U t) c.Source) t) ∧
      ∀ (T : ℝ) (V : ℝ → SArr d ι), SolvesOn (rhsNS c conv rhs) T V → V 0 = u0 → ∀ t ∈ Set.Icc 0 T, V t = U t := by
  have hpow : ∀ u, Solenoidal c.K u → (∀ i, Vanishes c.mask (u i)) → power w u (rhsNS c conv rhs u) =
      -c.nu * dissipation w c.K u + power w u c.Source := fun u h1 h2 => power_rhs c w conv rhs u h1 (Vanishes.mask h2) (hc u h1 h2)
  obtain ⟨U, hU0, hU, hUm⟩ := exists_solves_sub hq (admissible c.K c.mask) (rhsNS_admissible c conv rhs hs hsm) (powerForm w)
    (fun u v => by rw [powerForm_apply, powerForm_apply, power_symm]) (fun u hu => by rw [powerForm_apply]; exact power_self_pos hw u hu)
    le_rfl c.Source (fun u hu => by
      obtain ⟨h1, h2⟩ := mem_admissible.1 hu
      rw [powerForm_apply, powerForm_apply, powerForm_apply, hpow u h1 h2, zero_mul]
      have := mul_nonneg hnu (dissipation_nonneg w (fun k => (hw k).le) c.K u)
      linarith) u0 (mem_admissible.2 ⟨h0, hm⟩)
  have hUa := fun t => mem_admissible.1 (hUm t)
  refine ⟨U, hU0, hU, hUa, fun t ht => ?_, fun T V hV hV0 => solves_unique hq hU T V hV (hV0.trans hU0.symm)⟩
  rw [← hpow (U t) (hUa t).1 (hUa t).2]
  exact energy_hasDeriv w U _ t fun i k => hasDerivAt_pi.1 (hasDerivAt_pi.1 (solves_hasDerivAt hU ht) i) k

/-- C92.  NS, any form of convection (for Standard and Divergence with transforms that satisfy the product rule), any admissible start and
source: there is one solution for all times, it stays admissible and satisfies the energy balance. -/
theorem C92_ns (c : Ctx 3 ι X) (H : LinearSpace c.Tp) (s : Scratch 3 ι X) (w : ι → ℝ) (hw : ∀ k, 0 < w k) (a : ℝ)
    (hadj : Adjoint w a c.Tp.forward c.Tp.backward) (hnu : 0 ≤ c.nu) (hs : Solenoidal c.K c.Source) (hsm : ∀ i, Vanishes c.mask (c.Source i))
    (name : String) (conv) (hname : (getConvection name :
      Option (Scratch 3 ι X → SArr 3 ι → SArr 3 ι → Space ι X → (Fin 3 → ι → ℝ) → SArr 3 ι)) = some conv)
    (hL : name = "Standard" ∨ name = "Divergence" → Leibniz c.Tp.backward c.K (Vanishes c.mask)) (rhs u0 : SArr 3 ι)
    (h0 : Solenoidal c.K u0) (hm : ∀ i, Vanishes c.mask (u0 i)) :
    ∃ U : ℝ → SArr 3 ι, U 0 = u0 ∧ Solves (rhsNS c (fun r u => conv s r u c.Tp c.K) rhs) U ∧
      (∀ t, Solenoidal c.K (U t) ∧ ∀ i, Vanishes c.mask (U t i)) ∧
      (∀ t, 0 < t → HasDerivAt (fun s => energy w (U s)) (-c.nu * dissipation w c.K (U t) + power w (U t) c.Source) t) ∧
      ∀ (T : ℝ) (V : ℝ → SArr 3 ι), SolvesOn (rhsNS c (fun r u => conv s r u c.Tp c.K) rhs) T V → V 0 = u0 → ∀ t ∈ Set.Icc 0 T, V t = U t :=
  ns_global c w hw hnu hs hsm (fun r u => conv s r u c.Tp c.K) rhs
    (rhsNS_quad c (fun r u => conv s r u c.Tp c.K) rhs fun i k => conv_quad H c.K name conv hname s rhs i k) (fun u h1 h2 => power_conv c.Tp H.additive c.K w a hadj c.mask name conv hname hL s rhs u h1 h2) u0 h0 hm

/-- C92.  NS2D. -/
theorem C92_ns2d (c : Ctx 2 ι X) (H : LinearSpace c.Tp) (w0 : ι → ℂ) (w : ι → ℝ) (hw : ∀ k, 0 < w k) (a : ℝ)
    (hadj : Adjoint w a c.Tp.forward c.Tp.backward) (hnu : 0 ≤ c.nu) (hs : Solenoidal c.K c.Source) (hsm : ∀ i, Vanishes c.mask (c.Source i))
    (rhs u0 : SArr 2 ι) (h0 : Solenoidal c.K u0) (hm : ∀ i, Vanishes c.mask (u0 i)) :
    ∃ U : ℝ → SArr 2 ι, U 0 = u0 ∧ Solves (rhsNS c (fun r u => conv2DVortex w0 r u c.Tp c.K) rhs) U ∧
      (∀ t, Solenoidal c.K (U t) ∧ ∀ i, Vanishes c.mask (U t i)) ∧
      (∀ t, 0 < t → HasDerivAt (fun s => energy w (U s)) (-c.nu * dissipation w c.K (U t) + power w (U t) c.Source) t) ∧
      ∀ (T : ℝ) (V : ℝ → SArr 2 ι), SolvesOn (rhsNS c (fun r u => conv2DVortex w0 r u c.Tp c.K) rhs) T V → V 0 = u0 →
        ∀ t ∈ Set.Icc 0 T, V t = U t := by
  refine ns_global c w hw hnu hs hsm _ rhs (rhsNS_quad c _ rhs fun i k => conv2D_quad H c.K w0 rhs i k) (fun u h1 h2 => ?_) u0 h0 hm
  simp only [Spec.power, Fin.sum_univ_two, (conv2D_eq w0 rhs u c.Tp c.K).1, (conv2D_eq w0 rhs u c.Tp c.K).2]
  rw [hadj, hadj, ← mul_add, ← Finset.sum_add_distrib, Finset.sum_eq_zero fun x _ => ?_, mul_zero]
  ring

/-! ## MHD -/

/-- Work done by the MHD right-hand side. -/
theorem mhd_power (c : Ctx 3 ι X) (H : Additive c.Tp) (eta : ℝ) (w : ι → ℝ) (a : ℝ) (hadj : Adjoint w a c.Tp.forward c.Tp.backward)
    (hL : Leibniz c.Tp.backward c.K (Vanishes c.mask)) (rhs ub : SArr 3 ι × SArr 3 ι) (h1 : Solenoidal c.K ub.1) (h2 : Solenoidal c.K ub.2)
    (hm1 : ∀ i, Vanishes c.mask (ub.1 i)) (hm2 : ∀ i, Vanishes c.mask (ub.2 i)) :
    power w ub.1 (rhsMHD c eta (fun _ ub => convMHD ub c.Tp c.K) rhs ub).1 + power w ub.2 (rhsMHD c eta (fun _ ub => convMHD ub c.Tp c.K) rhs ub).2 =
      -c.nu * dissipation w c.K ub.1 - eta * dissipation w c.K ub.2 := by
  set r := rhsMHD c eta (fun _ ub => convMHD ub c.Tp c.K) rhs ub with hr
  let V : ℝ → SArr 3 ι × SArr 3 ι := fun s => (fun i k => ub.1 i k + s * r.1 i k, fun i k => ub.2 i k + s * r.2 i k)
  have hV0 : V 0 = ub := by simp [V]
  have hd : ∀ z r : ℂ, HasDerivAt (fun s : ℝ => z + s * r) r 0 := fun z r => by
    have := ((Complex.ofRealCLM.hasDerivAt (x := (0 : ℝ))).mul_const r).const_add z
    simpa using this
  have e1 := C81_mhd_energy c H eta w a hadj hL rhs V 0 (fun i k => by rw [hV0]; exact hd _ _) (fun i k => by rw [hV0]; exact hd _ _)
    (by rw [hV0]; exact h1) (by rw [hV0]; exact h2) (by rw [hV0]; exact hm1) (by rw [hV0]; exact hm2)
  have e2 := (energy_hasDeriv w (fun s => (V s).1) r.1 0 fun i k => hd _ _).add (energy_hasDeriv w (fun s => (V s).2) r.2 0 fun i k => hd _ _)
  have := e2.unique e1
  simpa only [hV0] using this

/-- C92.  MHD with transforms that satisfy the product rule. -/
theorem C92_mhd (c : Ctx 3 ι X) (H : LinearSpace c.Tp) (eta : ℝ) (w : ι → ℝ) (hw : ∀ k, 0 < w k) (a : ℝ)
    (hadj : Adjoint w a c.Tp.forward c.Tp.backward) (hL : Leibniz c.Tp.backward c.K (Vanishes c.mask)) (hnu : 0 ≤ c.nu) (heta : 0 ≤ eta)
    (rhs ub0 : SArr 3 ι × SArr 3 ι) (h1 : Solenoidal c.K ub0.1) (h2 : Solenoidal c.K ub0.2) (hm1 : ∀ i, Vanishes c.mask (ub0.1 i))
    (hm2 : ∀ i, Vanishes c.mask (ub0.2 i)) :
    ∃ U : ℝ → SArr 3 ι × SArr 3 ι, U 0 = ub0 ∧ Solves (rhsMHD c eta (fun _ ub => convMHD ub c.Tp c.K) rhs) U ∧
      (∀ t, (Solenoidal c.K (U t).1 ∧ ∀ i, Vanishes c.mask ((U t).1 i)) ∧ Solenoidal c.K (U t).2 ∧ ∀ i, Vanishes c.mask ((U t).2 i)) ∧
      (∀ t, 0 < t → HasDerivAt (fun s => energy w (U s).1 + energy w (U s).2)
        (-c.nu * dissipation w c.K (U t).1 - eta * dissipation w c.K (U t).2) t) ∧
      ∀ (T : ℝ) (V : ℝ → SArr 3 ι × SArr 3 ι), SolvesOn (rhsMHD c eta (fun _ ub => convMHD ub c.Tp c.K) rhs) T V → V 0 = ub0 →
        ∀ t ∈ Set.Icc 0 T, V t = U t := by
  have hq := rhsMHD_quad c H eta rhs
  let S := (admissible c.K c.mask).prod (admissible c.K c.mask)
  let β : SArr 3 ι × SArr 3 ι →ₗ[ℝ] SArr 3 ι × SArr 3 ι →ₗ[ℝ] ℝ :=
    (powerForm w).compl₁₂ (LinearMap.fst ..) (LinearMap.fst ..) + (powerForm w).compl₁₂ (LinearMap.snd ..) (LinearMap.snd ..)
  have hβ : ∀ x y, β x y = power w x.1 y.1 + power w x.2 y.2 := fun x y => by
    rw [← powerForm_apply, ← powerForm_apply]; rfl
  have key : ∃ y : ℝ → SArr 3 ι × SArr 3 ι, y 0 = ub0 ∧ Solves (rhsMHD c eta (fun _ ub => convMHD ub c.Tp c.K) rhs) y ∧ ∀ t, y t ∈ S := by
    refine exists_solves_sub hq S (fun ub hub => ?_) β (fun u v => by rw [hβ, hβ, power_symm, power_symm w u.2])
      (fun u hu => ?_) le_rfl 0 (fun u hu => ?_) ub0 ⟨mem_admissible.2 ⟨h1, hm1⟩, mem_admissible.2 ⟨h2, hm2⟩⟩
    · obtain ⟨a1, a2⟩ := mem_admissible.1 hub.1
      obtain ⟨b1, b2⟩ := mem_admissible.1 hub.2
      refine ⟨mem_admissible.2 ⟨fun k => ?_, fun i k hk => ?_⟩, mem_admissible.2 ⟨fun k => ?_, fun i k hk => ?_⟩⟩
      · rw [C11_velocity_rhs_divergence, a1 k, mul_zero]
      · simp [rhsMHD, add_pressure_diffusionMHD, maskNyquist_keeps, hk, a2 i k hk]
      · refine (C11_magnetic_rhs_divergence c eta (fun ub i j => c.Tp.forward fun x =>
          (c.Tp.backward (ub.1 i) x + c.Tp.backward (ub.2 i) x) * (c.Tp.backward (ub.1 j) x - c.Tp.backward (ub.2 j) x)) rhs ub k).trans ?_
        rw [b1 k, mul_zero]
      · simp [rhsMHD, add_pressure_diffusionMHD, maskNyquist_keeps, hk, b2 i k hk]
    · rw [hβ]
      have n1 := power_self_nonneg hw u.1
      have n2 := power_self_nonneg hw u.2
      by_cases hu1 : u.1 = 0
      · have := power_self_pos hw u.2 fun hu2 => hu (Prod.ext hu1 hu2)
        linarith
      · have := power_self_pos hw u.1 hu1
        linarith
    · obtain ⟨a1, a2⟩ := mem_admissible.1 hu.1
      obtain ⟨b1, b2⟩ := mem_admissible.1 hu.2
      rw [hβ, mhd_power c H.additive eta w a hadj hL rhs u a1 b1 a2 b2, zero_mul, map_zero]
      have p1 := mul_nonneg hnu (dissipation_nonneg w (fun k => (hw k).le) c.K u.1)
      have p2 := mul_nonneg heta (dissipation_nonneg w (fun k => (hw k).le) c.K u.2)
      linarith
  obtain ⟨U, hU0, hU, hUm⟩ := key
  have hUa := fun t => (⟨mem_admissible.1 (hUm t).1, mem_admissible.1 (hUm t).2⟩ :
    (Solenoidal c.K (U t).1 ∧ ∀ i, Vanishes c.mask ((U t).1 i)) ∧ Solenoidal c.K (U t).2 ∧ ∀ i, Vanishes c.mask ((U t).2 i))
  refine ⟨U, hU0, hU, hUa, fun t ht => ?_, fun T V hV hV0 => solves_unique hq hU T V hV (hV0.trans hU0.symm)⟩
  have hd := solves_hasDerivAt hU ht
  have hd1 : HasDerivAt (fun s => (U s).1) _ t := (ContinuousLinearMap.fst ℝ (SArr 3 ι) (SArr 3 ι)).hasFDerivAt.comp_hasDerivAt t hd
  have hd2 : HasDerivAt (fun s => (U s).2) _ t := (ContinuousLinearMap.snd ℝ (SArr 3 ι) (SArr 3 ι)).hasFDerivAt.comp_hasDerivAt t hd
  exact C81_mhd_energy c H.additive eta w a hadj hL rhs U t (fun i k => hasDerivAt_pi.1 (hasDerivAt_pi.1 hd1 i) k)
    (fun i k => hasDerivAt_pi.1 (hasDerivAt_pi.1 hd2 i) k) (hUa t).1.1 (hUa t).2.1 (hUa t).1.2 (hUa t).2.2

/-! ## Boussinesq -/

/-- C92.  Bq2D with transforms that satisfy the product rule, `nu >= 0`, `nu / Pr >= 0` and any Richardson number. -/
theorem C92_bq (c : Ctx 2 ι X) (H : LinearSpace c.Tp) (Ri Pr : ℝ) (w0 : SArr 2 ι) (w : ι → ℝ) (hw : ∀ k, 0 < w k) (a : ℝ)
    (hadj : Adjoint w a c.Tp.forward c.Tp.backward) (hL : Leibniz c.Tp.backward c.K (Vanishes c.mask)) (hnu : 0 ≤ c.nu) (hka : 0 ≤ c.nu / Pr)
    (rhs ur0 : SArr 2 ι × (ι → ℂ)) (h1 : Solenoidal c.K ur0.1) (hm1 : ∀ i, Vanishes c.mask (ur0.1 i)) (hm2 : Vanishes c.mask ur0.2)  :
    ∃ U : ℝ → SArr 2 ι × (ι → ℂ), U 0 = ur0 ∧ Solves (rhsBq c Ri Pr (fun r ur => convBq w0 r ur c.Tp c.K) rhs) U ∧
      (∀ t, Solenoidal c.K (U t).1 ∧ (∀ i, Vanishes c.mask ((U t).1 i)) ∧ Vanishes c.mask (U t).2) ∧
      (∀ t, 0 < t →
        HasDerivAt (fun s => energy w (U s).1) (-c.nu * dissipation w c.K (U t).1 - Ri * Spec.inner w ((U t).1 1) (U t).2) t ∧
        HasDerivAt (fun s => variance w (U s).2) (-(c.nu / Pr) * gradSq w c.K (U t).2) t) ∧
      ∀ (T : ℝ) (V : ℝ → SArr 2 ι × (ι → ℂ)), SolvesOn (rhsBq c Ri Pr (fun r ur => convBq w0 r ur c.Tp c.K) rhs) T V → V 0 = ur0 →
        ∀ t ∈ Set.Icc 0 T, V t = U t := by
  set f := rhsBq c Ri Pr (fun r ur => convBq w0 r ur c.Tp c.K) rhs with hf
  have hq : IsQuad f := rhsBq_quad c H Ri Pr w0 rhs
  let S := (admissible c.K c.mask).prod (maskedSpace c.mask)
  let β : SArr 2 ι × (ι → ℂ) →ₗ[ℝ] SArr 2 ι × (ι → ℂ) →ₗ[ℝ] ℝ :=
    (powerForm w).compl₁₂ (LinearMap.fst ..) (LinearMap.fst ..) + (innerForm w).compl₁₂ (LinearMap.snd ..) (LinearMap.snd ..)
  have hβ : ∀ x y, β x y = power w x.1 y.1 + Spec.inner w x.2 y.2 := fun x y => by
    rw [← powerForm_apply]; rfl
  have hd : ∀ z r : ℂ, HasDerivAt (fun s : ℝ => z + s * r) r 0 := fun z r => by
    have := ((Complex.ofRealCLM.hasDerivAt (x := (0 : ℝ))).mul_const r).const_add z
    simpa using this
  have hwork : ∀ u, Solenoidal c.K u.1 → (∀ i, Vanishes c.mask (u.1 i)) → Vanishes c.mask u.2 →
      power w u.1 (f u).1 + Spec.inner w u.2 (f u).2 =
        (-c.nu * dissipation w c.K u.1 - Ri * Spec.inner w (u.1 1) u.2) + -(c.nu / Pr) * gradSq w c.K u.2 := by
    intro u a1 a2 a3
    let V : ℝ → SArr 2 ι × (ι → ℂ) := fun s => (fun i k => u.1 i k + s * (f u).1 i k, fun k => u.2 k + s * (f u).2 k)
    have hV0 : V 0 = u := by simp [V]
    have e := C81_boussinesq c H.additive Ri Pr w0 w a hadj rhs V 0 (fun i k => by rw [hV0]; exact hd _ _) (fun k => by rw [hV0]; exact hd _ _)
      (by rw [hV0]; exact a1) (by rw [hV0]; exact a2) (by rw [hV0]; exact a3)
    have e1 := (energy_hasDeriv w (fun s => (V s).1) (f u).1 0 fun i k => hd _ _).unique e.1
    have e2 := ((inner_hasDeriv w (fun s => (V s).2) (fun s => (V s).2) (f u).2 (f u).2 0 (fun k => hd _ _) fun k => hd _ _).const_mul
      (1 / 2)).unique (e.2 hL)
    rw [inner_symm w (f u).2] at e2
    simp only [hV0] at e1 e2
    rw [e1, ← e2]
    ring
  have key : ∃ y : ℝ → SArr 2 ι × (ι → ℂ), y 0 = ur0 ∧ Solves f y ∧ ∀ t, y t ∈ S := by
    refine exists_solves_sub hq S (fun ur hur => ?_) β
      (fun u v => by rw [hβ, hβ, power_symm, inner_symm w u.2]) (fun u hu => ?_) (c := |Ri| / 2) (by positivity) 0 (fun u hu => ?_) ur0
      ⟨mem_admissible.2 ⟨h1, hm1⟩, hm2⟩
    · obtain ⟨a1, a2⟩ := mem_admissible.1 hur.1
      have a3 : Vanishes c.mask ur.2 := hur.2
      refine ⟨mem_admissible.2 ⟨fun k => ?_, fun i k hk => ?_⟩, fun k hk => ?_⟩
      · rw [hf, C13_rhs_divergence, a1 k, mul_zero]
      · rw [hf, (C13_rhs c Ri Pr w0 rhs ur k).1 i, leray_eq]
        simp [hk, a2 i k hk, a3 k hk]
      · rw [hf, (C13_rhs c Ri Pr w0 rhs ur k).2]
        simp [hk, a3 k hk]
    · rw [hβ]
      have n1 := power_self_nonneg hw u.1
      have n2 := inner_self_nonneg hw u.2
      by_cases hu1 : u.1 = 0
      · have := inner_self_pos hw u.2 fun hu2 => hu (Prod.ext hu1 hu2)
        linarith
      · have := power_self_pos hw u.1 hu1
        linarith
    · obtain ⟨a1, a2⟩ := mem_admissible.1 hu.1
      rw [hβ, hβ, hwork u a1 a2 hu.2, map_zero]
      have p1 := mul_nonneg hnu (dissipation_nonneg w (fun k => (hw k).le) c.K u.1)
      have p2 : 0 ≤ c.nu / Pr * gradSq w c.K u.2 := mul_nonneg hka (Finset.sum_nonneg fun j _ => inner_self_nonneg hw _)
      have p3 : ∀ r : ℝ, |r| = 1 → 0 ≤ Spec.inner w (u.1 1) (u.1 1) + Spec.inner w u.2 u.2 + 2 * r * Spec.inner w (u.1 1) u.2 := fun r hr => by
        have h := inner_self_nonneg hw (u.1 1 + r • u.2)
        have h2 : Spec.inner w (u.1 1 + r • u.2) (u.1 1 + r • u.2) = innerForm w (u.1 1 + r • u.2) (u.1 1 + r • u.2) := rfl
        have h3 : innerForm w u.2 (u.1 1) = innerForm w (u.1 1) u.2 := inner_symm w _ _
        have h4 : r * r = 1 := by rw [← abs_mul_abs_self, hr, one_mul]
        rw [h2] at h
        simp only [map_add, LinearMap.add_apply, map_smul, LinearMap.smul_apply, smul_eq_mul, h3] at h
        have h5 : r * (r * innerForm w u.2 u.2) = innerForm w u.2 u.2 := by rw [← mul_assoc, h4, one_mul]
        rw [mul_add, h5] at h
        show 0 ≤ innerForm w (u.1 1) (u.1 1) + innerForm w u.2 u.2 + 2 * r * innerForm w (u.1 1) u.2
        linarith
      have p4 : Spec.inner w (u.1 1) (u.1 1) ≤ power w u.1 u.1 := by
        rw [power_inner, Fin.sum_univ_two]
        linarith [inner_self_nonneg hw (u.1 0)]
      have p5 : -Ri * Spec.inner w (u.1 1) u.2 ≤ |Ri| / 2 * (Spec.inner w (u.1 1) (u.1 1) + Spec.inner w u.2 u.2) := by
        rcases le_total 0 Ri with h | h
        · rw [abs_of_nonneg h]
          have := mul_nonneg h (p3 1 (by norm_num))
          nlinarith
        · rw [abs_of_nonpos h]
          have := mul_nonneg (neg_nonneg.2 h) (p3 (-1) (by norm_num))
          nlinarith
      have p6 := mul_le_mul_of_nonneg_left p4 (by positivity : 0 ≤ |Ri| / 2)
      nlinarith
  obtain ⟨U, hU0, hU, hUm⟩ := key
  have hUa := fun t => (⟨(mem_admissible.1 (hUm t).1).1, (mem_admissible.1 (hUm t).1).2, (hUm t).2⟩ :
    Solenoidal c.K (U t).1 ∧ (∀ i, Vanishes c.mask ((U t).1 i)) ∧ Vanishes c.mask (U t).2)
  refine ⟨U, hU0, hU, hUa, fun t ht => ?_, fun T V hV hV0 => solves_unique hq hU T V hV (hV0.trans hU0.symm)⟩
  have hd := solves_hasDerivAt hU ht
  have hd1 : HasDerivAt (fun s => (U s).1) _ t := (ContinuousLinearMap.fst ℝ (SArr 2 ι) (ι → ℂ)).hasFDerivAt.comp_hasDerivAt t hd
  have hd2 : HasDerivAt (fun s => (U s).2) _ t := (ContinuousLinearMap.snd ℝ (SArr 2 ι) (ι → ℂ)).hasFDerivAt.comp_hasDerivAt t hd
  have e := C81_boussinesq c H.additive Ri Pr w0 w a hadj rhs U t (fun i k => hasDerivAt_pi.1 (hasDerivAt_pi.1 hd1 i) k)
    (fun k => hasDerivAt_pi.1 hd2 k) (hUa t).1 (hUa t).2.1 (hUa t).2.2
  exact ⟨e.1, e.2 hL⟩

/-! ## The transforms of the solvers -/

theorem rweight_pos {n : ℕ} (N : Fin (n + 1) → ℕ) (k : RModes N) : 0 < rweight N k := by unfold rweight; split <;> norm_num

theorem rspace_linear {n : ℕ} (N M : Fin (n + 1) → ℕ) : LinearSpace (rspace N M) := dft_linear (kernel (waves N) M) (rweight N)

open Dealias in
/-- C92.  NS with the 3/2-rule on any mesh in any box, any of the four forms of convection. -/
theorem C92_ns_padded (N : Fin 3 → ℕ) (hN : ∀ i, 0 < N i) (L : Fin 3 → ℝ) (nu : ℝ) (hnu : 0 ≤ nu) (Source : SArr 3 (RModes N))
    (hs : Solenoidal (scaledWaves N L) Source) (hsm : ∀ i, Unmasked N (Source i)) (s : Scratch 3 (RModes N) (Grid fun i => padded (N i)))
    (name : String) (conv) (hname : getConvection name = some conv) (rhs u0 : SArr 3 (RModes N)) (h0 : Solenoidal (scaledWaves N L) u0)
    (hm : ∀ i, Unmasked N (u0 i)) :
    let f := rhsNS (padCtx N L nu Source) (fun r u => conv s r u (padCtx N L nu Source).Tp (padCtx N L nu Source).K) rhs
    ∃ U : ℝ → SArr 3 (RModes N), U 0 = u0 ∧ Solves f U ∧ (∀ t, Solenoidal (scaledWaves N L) (U t) ∧ ∀ i, Unmasked N (U t i)) ∧
      (∀ t, 0 < t → HasDerivAt (fun s => energy (rweight N) (U s))
        (-nu * dissipation (rweight N) (scaledWaves N L) (U t) + power (rweight N) (U t) Source) t) ∧
      ∀ (T : ℝ) (V : ℝ → SArr 3 (RModes N)), SolvesOn f T V → V 0 = u0 → ∀ t ∈ Set.Icc 0 T, V t = U t :=
  C92_ns (padCtx N L nu Source) (rspace_linear N _) s (rweight N) (rweight_pos N) _ (padCtx_adjoint N L nu Source) hnu hs hsm name conv hname
    (fun _ => padCtx_leibniz N hN L nu Source) rhs u0 h0 hm

open Dealias in
/-- C92.  MHD with the 3/2-rule on any mesh in any box. -/
theorem C92_mhd_padded (N : Fin 3 → ℕ) (hN : ∀ i, 0 < N i) (L : Fin 3 → ℝ) (nu eta : ℝ) (hnu : 0 ≤ nu) (heta : 0 ≤ eta)
    (rhs ub0 : SArr 3 (RModes N) × SArr 3 (RModes N)) (h1 : Solenoidal (scaledWaves N L) ub0.1) (h2 : Solenoidal (scaledWaves N L) ub0.2)
    (hm1 : ∀ i, Unmasked N (ub0.1 i)) (hm2 : ∀ i, Unmasked N (ub0.2 i)) :
    let f := rhsMHD (padCtx N L nu 0) eta (fun _ ub => convMHD ub (padCtx N L nu 0).Tp (padCtx N L nu 0).K) rhs
    ∃ U : ℝ → SArr 3 (RModes N) × SArr 3 (RModes N), U 0 = ub0 ∧ Solves f U ∧
      (∀ t, (Solenoidal (scaledWaves N L) (U t).1 ∧ ∀ i, Unmasked N ((U t).1 i)) ∧ Solenoidal (scaledWaves N L) (U t).2 ∧
        ∀ i, Unmasked N ((U t).2 i)) ∧
      (∀ t, 0 < t → HasDerivAt (fun s => energy (rweight N) (U s).1 + energy (rweight N) (U s).2)
        (-nu * dissipation (rweight N) (scaledWaves N L) (U t).1 - eta * dissipation (rweight N) (scaledWaves N L) (U t).2) t) ∧
      ∀ (T : ℝ) (V : ℝ → SArr 3 (RModes N) × SArr 3 (RModes N)), SolvesOn f T V → V 0 = ub0 → ∀ t ∈ Set.Icc 0 T, V t = U t :=
  C92_mhd (padCtx N L nu 0) (rspace_linear N _) eta (rweight N) (rweight_pos N) _ (padCtx_adjoint N L nu 0) (padCtx_leibniz N hN L nu 0) hnu heta
    rhs ub0 h1 h2 hm1 hm2

open Dealias in
/-- C92.  Bq2D with the 3/2-rule on any mesh in any box. -/
theorem C92_bq_padded (N : Fin 2 → ℕ) (hN : ∀ i, 0 < N i) (L : Fin 2 → ℝ) (nu Ri Pr : ℝ) (hnu : 0 ≤ nu) (hPr : 0 ≤ Pr) (w0 : SArr 2 (RModes N))
    (rhs ur0 : SArr 2 (RModes N) × (RModes N → ℂ)) (h1 : Solenoidal (scaledWaves N L) ur0.1) (hm1 : ∀ i, Unmasked N (ur0.1 i))
    (hm2 : Unmasked N ur0.2) :
    let f := rhsBq (padCtx N L nu 0) Ri Pr (fun r ur => convBq w0 r ur (padCtx N L nu 0).Tp (padCtx N L nu 0).K) rhs
    ∃ U : ℝ → SArr 2 (RModes N) × (RModes N → ℂ), U 0 = ur0 ∧ Solves f U ∧
      (∀ t, Solenoidal (scaledWaves N L) (U t).1 ∧ (∀ i, Unmasked N ((U t).1 i)) ∧ Unmasked N (U t).2) ∧
      (∀ t, 0 < t →
        HasDerivAt (fun s => energy (rweight N) (U s).1)
          (-nu * dissipation (rweight N) (scaledWaves N L) (U t).1 - Ri * Spec.inner (rweight N) ((U t).1 1) (U t).2) t ∧
        HasDerivAt (fun s => variance (rweight N) (U s).2) (-(nu / Pr) * gradSq (rweight N) (scaledWaves N L) (U t).2) t) ∧
      ∀ (T : ℝ) (V : ℝ → SArr 2 (RModes N) × (RModes N → ℂ)), SolvesOn f T V → V 0 = ur0 → ∀ t ∈ Set.Icc 0 T, V t = U t :=
  C92_bq (padCtx N L nu 0) (rspace_linear N _) Ri Pr w0 (rweight N) (rweight_pos N) _ (padCtx_adjoint N L nu 0) (padCtx_leibniz N hN L nu 0) hnu
    (div_nonneg hnu hPr) rhs ur0 h1 hm1 hm2

/-- C92.  NS (Vortex form) and VV have the same solutions, for any transform size: from a real divergence-free velocity without mean there is
one solution of NS for all times, and its curl is the one solution of VV. -/
theorem C92_vv (N M : Fin 3 → ℕ) (hN : ∀ i, 0 < N i) (hNM : ∀ i, N i ≤ M i) (L : Fin 3 → ℝ) (hL : ∀ i, L i ≠ 0) (nu : ℝ) (hnu : 0 ≤ nu)
    (S : SArr 3 (RModes N)) (hS : S ∈ flowSpace N L) (s s' : Scratch 3 (RModes N) (Grid M)) (rhs rhs' u0 : SArr 3 (RModes N))
    (h0 : u0 ∈ flowSpace N L) :
    let f := rhsNS (fftCtx N M L nu (some (nyquistMask N)) S) (fun r u => convVortex s r u (rspace N M) (scaledWaves N L)) rhs
    let g := rhsVV (fftCtx N M L nu (some (nyquistMask N)) (Spec.curl (scaledWaves N L) S)) s' rhs'
    ∃ U : ℝ → SArr 3 (RModes N), U 0 = u0 ∧ Solves f U ∧ (∀ t, U t ∈ flowSpace N L) ∧ Solves g (fun t => Spec.curl (scaledWaves N L) (U t)) ∧
      (∀ (T : ℝ) (V : ℝ → SArr 3 (RModes N)), SolvesOn f T V → V 0 = u0 → ∀ t ∈ Set.Icc 0 T, V t = U t) ∧
      ∀ (T : ℝ) (W : ℝ → SArr 3 (RModes N)), SolvesOn g T W → W 0 = Spec.curl (scaledWaves N L) u0 →
        ∀ t ∈ Set.Icc 0 T, W t = Spec.curl (scaledWaves N L) (U t) := by
  intro f g
  set c := fftCtx N M L nu (some (nyquistMask N)) S with hc
  have hlin : LinearSpace c.Tp := rspace_linear N M
  have hqf : IsQuad f := rhsNS_quad c _ rhs fun i k => conv_quad hlin c.K "Vortex" convVortex (by simp [getConvection]) s rhs i k
  have hqg : IsQuad g := rhsVV_quad (fftCtx N M L nu (some (nyquistMask N)) (Spec.curl (scaledWaves N L) S)) (rspace_linear N M) s' rhs'
  obtain ⟨U, hU0, hU, hUm⟩ := exists_solves_sub hqf (flowSpace N L) (fun u hu => flowSpace_invariant N M hN hNM L hL nu S hS s rhs u hu)
    (powerForm (rweight N)) (fun u v => by rw [powerForm_apply, powerForm_apply, power_symm])
    (fun u hu => by rw [powerForm_apply]; exact power_self_pos (rweight_pos N) u hu) le_rfl S (fun u hu => by
      rw [powerForm_apply, powerForm_apply, powerForm_apply, zero_mul]
      have hw : ∀ k, 0 ≤ rweight N k := fun k => (rweight_pos N k).le
      have h1 : Solenoidal c.K u := hu.1.1.1
      have h2 : ∀ m, c.mask = some m → ∀ k, m k = false → ∀ i, u i k = 0 := fun m hm k hk i => by
        obtain rfl := Option.some.inj hm
        exact hu.2 k hk i
      have e := C07_energy_rate c s (rweight N) _ (dft_adjoint (kernel (waves N) M) (rweight N)) rhs u h1 h2
      have p := mul_nonneg hnu (dissipation_nonneg (rweight N) hw c.K u)
      have e' : power (rweight N) u (f u) = -nu * dissipation (rweight N) c.K u + power (rweight N) u S := e
      rw [e']
      linarith) u0 h0
  have hcurl : ∀ u ∈ flowSpace N L, g (Spec.curl (scaledWaves N L) u) = Spec.curl (scaledWaves N L) (f u) := fun u hu =>
    C09_rhs_curl c (fftCtx N M L nu (some (nyquistMask N)) (Spec.curl (scaledWaves N L) S)) s s' rfl rfl rfl rfl rfl rhs rhs' u hu.1.1.1
      (fun k hk => hu.1.1.2 k ((scaled_zero N L hL k).1 hk))
  have hW : Solves g fun t => Spec.curl (scaledWaves N L) (U t) := fun t ht => by
    have h1 := (LinearMap.toContinuousLinearMap (curlMap (scaledWaves N L))).hasFDerivAt.comp_hasDerivWithinAt t (hU t ht)
    have h2 : LinearMap.toContinuousLinearMap (curlMap (scaledWaves N L)) (f (U t)) = g (Spec.curl (scaledWaves N L) (U t)) :=
      (hcurl (U t) (hUm t)).symm
    rw [h2] at h1
    exact h1
  exact ⟨U, hU0, hU, hUm, hW, fun T V hV hV0 => solves_unique hqf hU T V hV (hV0.trans hU0.symm),
    fun T W hT hT0 => solves_unique hqg hW T W hT (by rw [hT0]; simp only [hU0])⟩

/-! ## C93 for the solvers -/

/-- The statements of `C93_fixed`, `C93_ab2` and `C93_adaptive` for a right-hand side `F` (arguments: previous content of `rhs`, state) of the
equation `u' = f u`. -/
structure Converges {E : Type*} [NormedAddCommGroup E] [NormedSpace ℝ E] (F : E → E → E) (f : E → E) : Prop where
  fixed : ∀ (est : E → E → E → PyF) (T : ℝ), 0 ≤ T → ∀ y : ℝ → E, SolvesOn f T y → ∀ name q,
    (name, q) ∈ [("ForwardEuler", 1), ("RK4", 4), ("BS5_fixed", 5)] →
    ∃ m, Method.ofName name = some m ∧ ∃ C H0 : ℝ, 0 < H0 ∧ ∀ H, 0 ≤ H → H ≤ H0 → ∀ ds : List ℝ, (∀ d ∈ ds, 0 ≤ d ∧ d ≤ H) → ds.sum ≤ T →
      ∀ (fuel : ℕ) (rhs : E), ∃ outs, runOutputs F est (fuel + 1) m 0 ds (getintegrator rhs (y 0)) = some outs ∧
        (outs.map fun o => o.2.2) = ds ∧ Within y (C * H ^ q) 0 outs
  ab2 : ∀ (est : E → E → E → PyF) (T : ℝ), 0 ≤ T → ∀ y : ℝ → E, SolvesOn f T y →
    ∃ m, Method.ofName "AB2" = some m ∧ ∃ C H0 : ℝ, 0 < H0 ∧ ∀ h, 0 ≤ h → h ≤ H0 → ∀ n : ℕ, n * h ≤ T →
      ∀ (fuel : ℕ) (rhs : E), ∃ outs, runOutputs F est fuel m 0 (List.replicate n h) (getintegrator rhs (y 0)) = some outs ∧
        (outs.map fun o => o.2.2) = List.replicate n h ∧ Within y (C * h ^ 2) 0 outs
  adaptive : ∀ (est : E → E → E → PyF), (∀ a b c, (est a b c).Nonneg) → ∀ (T : ℝ), 0 ≤ T → ∀ y : ℝ → E, SolvesOn f T y →
    ∃ m, Method.ofName "BS5_adaptive" = some m ∧ ∃ C H0 : ℝ, 0 < H0 ∧ ∀ H, 0 ≤ H → H ≤ H0 → ∀ (ds : List ℝ) (fuel : ℕ) (rhs : E) outs,
      runOutputs F est fuel m 0 ds (getintegrator rhs (y 0)) = some outs → (∀ o ∈ outs, 0 ≤ o.2.2 ∧ o.2.2 ≤ H) →
      (outs.map fun o => o.2.2).sum ≤ T → Within y (C * H ^ 5) 0 outs

theorem converges_of_quad {E : Type*} [NormedAddCommGroup E] [NormedSpace ℝ E] [FiniteDimensional ℝ E] (F : E → E → E) (f : E → E)
    (hF : ∀ r u, F r u = f u) (hf : IsQuad f) : Converges F f :=
  ⟨fun est _ hT _ hy name q hq => C93_fixed F f hF hf est hT hy name q hq, fun est _ hT _ hy => C93_ab2 F f hF hf est hT hy,
    fun est hest _ hT _ hy => C93_adaptive F f hF hf est hT hy hest⟩

omit [Fintype X] in
/-- C93.  Every periodic solver, with any linear transforms, sources, masks and forms of convection; `r0` is any content of the array `rhs`,
on which the right-hand side does not depend. -/
theorem C93_periodic :
    (∀ (c : Ctx 3 ι X) (_ : LinearSpace c.Tp) (s : Scratch 3 ι X) (name : String) (conv) (_ : getConvection name = some conv) (r0 : SArr 3 ι),
      Converges (rhsNS c fun r u => conv s r u c.Tp c.K) (rhsNS c (fun r u => conv s r u c.Tp c.K) r0)) ∧
    (∀ (c : Ctx 2 ι X) (_ : LinearSpace c.Tp) (w0 : ι → ℂ) (r0 : SArr 2 ι),
      Converges (rhsNS c fun r u => conv2DVortex w0 r u c.Tp c.K) (rhsNS c (fun r u => conv2DVortex w0 r u c.Tp c.K) r0)) ∧
    (∀ (c : Ctx 3 ι X) (_ : LinearSpace c.Tp) (s : Scratch 3 ι X) (r0 : SArr 3 ι), Converges (rhsVV c s) (rhsVV c s r0)) ∧
    (∀ (c : Ctx 3 ι X) (_ : LinearSpace c.Tp) (eta : ℝ) (r0 : SArr 3 ι × SArr 3 ι),
      Converges (rhsMHD c eta fun _ ub => convMHD ub c.Tp c.K) (rhsMHD c eta (fun _ ub => convMHD ub c.Tp c.K) r0)) ∧
    ∀ (c : Ctx 2 ι X) (_ : LinearSpace c.Tp) (Ri Pr : ℝ) (w0 : SArr 2 ι) (r0 : SArr 2 ι × (ι → ℂ)),
      Converges (rhsBq c Ri Pr fun r ur => convBq w0 r ur c.Tp c.K) (rhsBq c Ri Pr (fun r ur => convBq w0 r ur c.Tp c.K) r0) := by
  refine ⟨fun c H s name conv hname r0 => ?_, fun c H w0 r0 => ?_, fun c H s r0 => ?_, fun c H eta r0 => ?_, fun c H Ri Pr w0 r0 => ?_⟩
  · refine converges_of_quad _ _ (fun r u => ?_) (rhsNS_quad c _ r0 fun i k => conv_quad H c.K name conv hname s r0 i k)
    simp only [rhsNS, ComputeRHS, conv_indep name conv hname s c.K r r0 u]
  · refine converges_of_quad _ _ (fun r u => ?_) (rhsNS_quad c _ r0 fun i k => conv2D_quad H c.K w0 r0 i k)
    have : conv2DVortex w0 r u c.Tp c.K = conv2DVortex w0 r0 u c.Tp c.K := by
      funext i
      match i with
      | 0 => rw [(conv2D_eq w0 r u c.Tp c.K).1, (conv2D_eq w0 r0 u c.Tp c.K).1]
      | 1 => rw [(conv2D_eq w0 r u c.Tp c.K).2, (conv2D_eq w0 r0 u c.Tp c.K).2]
    simp only [rhsNS, ComputeRHS, this]
  · refine converges_of_quad _ _ (fun r u => ?_) (rhsVV_quad c H s r0)
    simp only [rhsVV, convVV, cross2_3d_eq]
  · exact converges_of_quad _ _ (fun r u => rfl) (rhsMHD_quad c H eta r0)
  · refine converges_of_quad _ _ (fun r u => ?_) (rhsBq_quad c H Ri Pr w0 r0)
    simp only [rhsBq, convBq_eq]

open Dealias in
/-- C93.  Put together for NS with the 3/2-rule: for every mesh, box, viscosity, admissible source and start there is one flow, and RK4 follows
it with an error of fourth order on every time interval. -/
theorem C93_ns_rk4 (N : Fin 3 → ℕ) (hN : ∀ i, 0 < N i) (L : Fin 3 → ℝ) (nu : ℝ) (hnu : 0 ≤ nu) (Source : SArr 3 (RModes N))
    (hs : Solenoidal (scaledWaves N L) Source) (hsm : ∀ i, Unmasked N (Source i)) (s : Scratch 3 (RModes N) (Grid fun i => padded (N i)))
    (name : String) (conv) (hname : getConvection name = some conv) (u0 : SArr 3 (RModes N)) (h0 : Solenoidal (scaledWaves N L) u0)
    (hm : ∀ i, Unmasked N (u0 i)) (est : SArr 3 (RModes N) → SArr 3 (RModes N) → SArr 3 (RModes N) → PyF) :
    let F := rhsNS (padCtx N L nu Source) fun r u => conv s r u (padCtx N L nu Source).Tp (padCtx N L nu Source).K
    ∃ U : ℝ → SArr 3 (RModes N), U 0 = u0 ∧ Solves (F 0) U ∧ ∀ T, 0 ≤ T → ∃ m, Method.ofName "RK4" = some m ∧ ∃ C H0 : ℝ, 0 < H0 ∧
      ∀ H, 0 ≤ H → H ≤ H0 → ∀ ds : List ℝ, (∀ d ∈ ds, 0 ≤ d ∧ d ≤ H) → ds.sum ≤ T → ∀ (fuel : ℕ) (rhs : SArr 3 (RModes N)),
        ∃ outs, runOutputs F est (fuel + 1) m 0 ds (getintegrator rhs u0) = some outs ∧ (outs.map fun o => o.2.2) = ds ∧
          Within U (C * H ^ 4) 0 outs := by
  intro F
  obtain ⟨U, hU0, hU, -, -, -⟩ := C92_ns_padded N hN L nu hnu Source hs hsm s name conv hname 0 u0 h0 hm
  refine ⟨U, hU0, hU, fun T hT => ?_⟩
  have := (C93_periodic.1 (padCtx N L nu Source) (rspace_linear N _) s name conv hname 0).fixed est T hT U (hU.on T) "RK4" 4 (by simp)
  rwa [hU0] at this

open Dealias in
/-- A start that meets the hypotheses: the velocity with the single coefficient `1` in direction `2` at the mode `(1, 0, 0)` of a mesh with at
least three points per direction. -/
example (N : Fin 3 → ℕ) (hN : ∀ i, 3 ≤ N i) : ∃ u0 : SArr 3 (RModes N), Solenoidal (scaledWaves N 1) u0 ∧ (∀ i, Unmasked N (u0 i)) ∧ u0 ≠ 0 := by
  let k : RModes N := fun i => ⟨if i = 0 then 1 else 0, by
    have := hN i
    unfold rdim
    split <;> split <;> omega⟩
  have e0 : waves N 0 k = 1 := by
    have := hN 0
    simp only [waves, k]
    rw [if_neg (by decide), if_pos (by simp; omega)]
    simp
  have e1 : waves N 1 k = 0 := by
    have := hN 1
    simp only [waves, k]
    rw [if_neg (by decide), if_pos (by simp; omega)]
    simp
  have e2 : waves N 2 k = 0 := by
    simp only [waves, k]
    rw [if_pos (by decide)]
    simp
  refine ⟨fun i k' => if i = 2 ∧ k' = k then 1 else 0, fun k' => ?_, fun i k' hk' => ?_, fun h => ?_⟩
  · by_cases h : k' = k
    · rw [h]
      simp [dot, at', Fin.sum_univ_three, scaledWaves, e2]
    · simp [dot, at', h]
  · have : k' ≠ k := fun h => by
      have hm : nyquistMask N k' = true := by
        rw [nyquistMask_iff, h]
        intro i
        have h0 := hN 0
        have h1 := hN 1
        have h2 := hN 2
        fin_cases i <;> simp only [Fin.zero_eta, Fin.mk_one, Fin.reduceFinMk, e0, e1, e2] <;> omega
      rw [hm] at hk'
      cases hk'
    simp [this]
  · have := congrFun (congrFun h 2) k
    simp at this

end SpectralDNS.Periodic

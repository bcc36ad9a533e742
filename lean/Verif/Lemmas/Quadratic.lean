import Mathlib.Topology.Algebra.Module.FiniteDimensionBilinear
import Mathlib.Analysis.Calculus.FDeriv.Bilinear
import Mathlib.LinearAlgebra.BilinearMap
import Verif.Lemmas.GlobalODE

/-!
# Polynomial maps of degree at most two, and global solutions in an invariant subspace
-/

namespace SpectralDNS

section alg

variable {E F G : Type*} [AddCommGroup E] [Module ℝ E] [AddCommGroup F] [Module ℝ F] [AddCommGroup G] [Module ℝ G]

/-- `f` is linear. -/
def IsLin (f : E → F) : Prop := ∃ A : E →ₗ[ℝ] F, ∀ u, f u = A u

/-- `f` is a polynomial of degree at most two. -/
def IsQuad (f : E → F) : Prop := ∃ (c : F) (A : E →ₗ[ℝ] F) (Q : E →ₗ[ℝ] E →ₗ[ℝ] F), ∀ u, f u = c + A u + Q u u

theorem IsLin.id : IsLin fun u : E => u := ⟨LinearMap.id, fun _ => rfl⟩

theorem IsLin.comp {f : E → F} (hf : IsLin f) {g : F → G} (hg : IsLin g) : IsLin fun u => g (f u) := by
  obtain ⟨A, hA⟩ := hf
  obtain ⟨B, hB⟩ := hg
  exact ⟨B.comp A, fun u => by dsimp only; rw [hA, hB]; rfl⟩

theorem IsLin.add {f g : E → F} (hf : IsLin f) (hg : IsLin g) : IsLin fun u => f u + g u := by
  obtain ⟨A, hA⟩ := hf
  obtain ⟨B, hB⟩ := hg
  exact ⟨A + B, fun u => by dsimp only; rw [hA, hB]; rfl⟩

theorem IsLin.neg {f : E → F} (hf : IsLin f) : IsLin fun u => -f u := by
  obtain ⟨A, hA⟩ := hf
  exact ⟨-A, fun u => by dsimp only; rw [hA]; rfl⟩

theorem IsLin.sub {f g : E → F} (hf : IsLin f) (hg : IsLin g) : IsLin fun u => f u - g u := by
  obtain ⟨A, hA⟩ := hf
  obtain ⟨B, hB⟩ := hg
  exact ⟨A - B, fun u => by dsimp only; rw [hA, hB]; rfl⟩

theorem IsLin.zero : IsLin fun _ : E => (0 : F) := ⟨0, fun _ => rfl⟩

theorem IsLin.pi {κ : Type*} {H : κ → Type*} [∀ i, AddCommGroup (H i)] [∀ i, Module ℝ (H i)] {f : E → (i : κ) → H i}
    (hf : ∀ i, IsLin fun u => f u i) : IsLin f := by
  choose A hA using hf
  exact ⟨LinearMap.pi A, fun u => _root_.funext fun i => hA i u⟩

theorem IsLin.apply {κ : Type*} {H : κ → Type*} [∀ i, AddCommGroup (H i)] [∀ i, Module ℝ (H i)] {f : E → (i : κ) → H i}
    (hf : IsLin f) (i : κ) : IsLin fun u => f u i := by
  obtain ⟨A, hA⟩ := hf
  exact ⟨(LinearMap.proj i).comp A, fun u => by dsimp only; rw [hA]; rfl⟩

theorem IsLin.fst {f : E → F × G} (hf : IsLin f) : IsLin fun u => (f u).1 := by
  obtain ⟨A, hA⟩ := hf
  exact ⟨(LinearMap.fst ℝ F G).comp A, fun u => by dsimp only; rw [hA]; rfl⟩

theorem IsLin.snd {f : E → F × G} (hf : IsLin f) : IsLin fun u => (f u).2 := by
  obtain ⟨A, hA⟩ := hf
  exact ⟨(LinearMap.snd ℝ F G).comp A, fun u => by dsimp only; rw [hA]; rfl⟩

theorem IsLin.const_mul {f : E → ℂ} (hf : IsLin f) (z : ℂ) : IsLin fun u => z * f u :=
  hf.comp ⟨LinearMap.mulLeft ℝ z, fun _ => rfl⟩

theorem IsLin.mul_const {f : E → ℂ} (hf : IsLin f) (z : ℂ) : IsLin fun u => f u * z :=
  hf.comp ⟨LinearMap.mulRight ℝ z, fun _ => rfl⟩

theorem IsLin.quad {f : E → F} (hf : IsLin f) : IsQuad f := by
  obtain ⟨A, hA⟩ := hf
  exact ⟨0, A, 0, fun u => by rw [hA]; simp⟩

theorem IsQuad.const (c : F) : IsQuad fun _ : E => c := ⟨c, 0, 0, fun u => by simp⟩

theorem IsQuad.add {f g : E → F} (hf : IsQuad f) (hg : IsQuad g) : IsQuad fun u => f u + g u := by
  obtain ⟨c, A, Q, h⟩ := hf
  obtain ⟨c', A', Q', h'⟩ := hg
  refine ⟨c + c', A + A', Q + Q', fun u => ?_⟩
  dsimp only
  rw [h, h']
  simp only [LinearMap.add_apply]
  abel

theorem IsQuad.lin {f : E → F} (hf : IsQuad f) {g : F → G} (hg : IsLin g) : IsQuad fun u => g (f u) := by
  obtain ⟨c, A, Q, h⟩ := hf
  obtain ⟨B, hB⟩ := hg
  exact ⟨B c, B.comp A, Q.compr₂ B, fun u => by dsimp only; rw [h, hB]; simp⟩

theorem IsQuad.comp {f : E → F} (hf : IsLin f) {g : F → G} (hg : IsQuad g) : IsQuad fun u => g (f u) := by
  obtain ⟨A, hA⟩ := hf
  obtain ⟨c, B, Q, h⟩ := hg
  exact ⟨c, B.comp A, Q.compl₁₂ A A, fun u => by dsimp only; rw [hA, h]; simp⟩

theorem IsQuad.neg {f : E → F} (hf : IsQuad f) : IsQuad fun u => -f u := hf.lin ⟨-LinearMap.id, fun _ => rfl⟩

theorem IsQuad.sub {f g : E → F} (hf : IsQuad f) (hg : IsQuad g) : IsQuad fun u => f u - g u := by
  simpa only [sub_eq_add_neg] using hf.add hg.neg

theorem IsQuad.pi {κ : Type*} {H : κ → Type*} [∀ i, AddCommGroup (H i)] [∀ i, Module ℝ (H i)] {f : E → (i : κ) → H i}
    (hf : ∀ i, IsQuad fun u => f u i) : IsQuad f := by
  choose c A Q h using hf
  refine ⟨c, LinearMap.pi A, LinearMap.mk₂ ℝ (fun u v i => Q i u v) ?_ ?_ ?_ ?_, fun u => _root_.funext fun i => h i u⟩
  · intro u u' v; funext i; simp
  · intro r u v; funext i; simp
  · intro u v v'; funext i; simp
  · intro r u v; funext i; simp

theorem IsQuad.apply {κ : Type*} {H : κ → Type*} [∀ i, AddCommGroup (H i)] [∀ i, Module ℝ (H i)] {f : E → (i : κ) → H i}
    (hf : IsQuad f) (i : κ) : IsQuad fun u => f u i := hf.lin ⟨LinearMap.proj i, fun _ => rfl⟩

theorem IsQuad.prod {f : E → F} {g : E → G} (hf : IsQuad f) (hg : IsQuad g) : IsQuad fun u => (f u, g u) := by
  have h1 := hf.lin (g := LinearMap.inl ℝ F G) ⟨_, fun _ => rfl⟩
  have h2 := hg.lin (g := LinearMap.inr ℝ F G) ⟨_, fun _ => rfl⟩
  simpa using h1.add h2

theorem IsQuad.sum {κ : Type*} (s : Finset κ) {f : κ → E → F} (hf : ∀ i ∈ s, IsQuad (f i)) : IsQuad fun u => ∑ i ∈ s, f i u := by
  classical
  induction s using Finset.induction_on with
  | empty => simpa using IsQuad.const (E := E) (0 : F)
  | insert i s hi ih =>
    simp only [Finset.sum_insert hi]
    exact (hf i (Finset.mem_insert_self _ _)).add (ih fun j hj => hf j (Finset.mem_insert_of_mem hj))

theorem IsLin.mul {f g : E → ℝ} (hf : IsLin f) (hg : IsLin g) : IsQuad fun u => f u * g u := by
  obtain ⟨A, hA⟩ := hf
  obtain ⟨B, hB⟩ := hg
  exact ⟨0, 0, (LinearMap.mul ℝ ℝ).compl₁₂ A B, fun u => by dsimp only; rw [hA, hB]; simp⟩

theorem IsQuad.const_mul {f : E → ℂ} (hf : IsQuad f) (z : ℂ) : IsQuad fun u => z * f u :=
  hf.lin ⟨LinearMap.mulLeft ℝ z, fun _ => rfl⟩

theorem IsQuad.mul_const {f : E → ℂ} (hf : IsQuad f) (z : ℂ) : IsQuad fun u => f u * z :=
  hf.lin ⟨LinearMap.mulRight ℝ z, fun _ => rfl⟩

theorem IsQuad.congr {f g : E → F} (hf : IsQuad f) (h : ∀ u, g u = f u) : IsQuad g := by
  rwa [_root_.funext h]

end alg

variable {E : Type*} [NormedAddCommGroup E] [NormedSpace ℝ E] [FiniteDimensional ℝ E]

theorem IsQuad.field {f : E → E} (hf : IsQuad f) : QuadField f := by
  obtain ⟨c, A, Q, h⟩ := hf
  exact ⟨c, LinearMap.toContinuousLinearMap A, Q.toContinuousBilinearMap, h⟩

/-- A positive definite form controls the norm. -/
theorem form_coercive (β : E →ₗ[ℝ] E →ₗ[ℝ] ℝ) (hpos : ∀ u, u ≠ 0 → 0 < β u u) (B : ℝ) : ∃ R, ∀ u, β u u ≤ B → ‖u‖ ≤ R := by
  have : ProperSpace E := FiniteDimensional.proper ℝ E
  have hcont : Continuous fun u => β u u := by
    have h2 : (fun u => β u u) = fun u => β.toContinuousBilinearMap u u := rfl
    rw [h2]
    exact (β.toContinuousBilinearMap.continuous.clm_apply continuous_id)
  rcases (Metric.sphere (0 : E) 1).eq_empty_or_nonempty with he | hne
  · refine ⟨0, fun u _ => ?_⟩
    by_contra h
    have hu : ‖u‖ ≠ 0 := fun h0 => h h0.le
    have : ‖u‖⁻¹ • u ∈ Metric.sphere (0 : E) 1 := by
      rw [mem_sphere_zero_iff_norm, norm_smul, norm_inv, norm_norm, inv_mul_cancel₀ hu]
    rw [he] at this
    exact this
  · obtain ⟨e, he, hmin⟩ := (isCompact_sphere (0 : E) 1).exists_isMinOn hne hcont.continuousOn
    have he1 : ‖e‖ = 1 := by simpa using he
    have hm : 0 < β e e := hpos e (fun h => by rw [h, norm_zero] at he1; exact zero_ne_one he1)
    refine ⟨B / β e e + 1, fun u hu => ?_⟩
    have hb : ‖u‖ ^ 2 * β e e ≤ β u u := by
      by_cases h0 : u = 0
      · simp [h0]
      · have hn : ‖u‖ ≠ 0 := norm_ne_zero_iff.2 h0
        have h1 : β e e ≤ β (‖u‖⁻¹ • u) (‖u‖⁻¹ • u) :=
          hmin (show ‖u‖⁻¹ • u ∈ Metric.sphere (0 : E) 1 by
            rw [mem_sphere_zero_iff_norm, norm_smul, norm_inv, norm_norm, inv_mul_cancel₀ hn])
        simp only [map_smul, LinearMap.smul_apply, smul_eq_mul] at h1
        have h2 := mul_le_mul_of_nonneg_left h1 (sq_nonneg ‖u‖)
        have h3 : ‖u‖ ^ 2 * (‖u‖⁻¹ * (‖u‖⁻¹ * β u u)) = β u u := by field_simp
        linarith
    have h4 : ‖u‖ ^ 2 ≤ B / β e e := by rw [le_div_iff₀ hm]; linarith
    nlinarith [norm_nonneg u]

/-- Cauchy-Schwarz in the form used for the source. -/
theorem form_young (β : E →ₗ[ℝ] E →ₗ[ℝ] ℝ) (hsym : ∀ u v, β u v = β v u) (hpos : ∀ u, u ≠ 0 → 0 < β u u) (u s : E) :
    β u s ≤ 1 / 2 * β u u + 1 / 2 * β s s := by
  have h0 : 0 ≤ β (u - s) (u - s) := by
    rcases eq_or_ne (u - s) 0 with h | h
    · simp [h]
    · exact (hpos _ h).le
  simp only [map_sub, LinearMap.sub_apply] at h0
  rw [hsym s u] at h0
  linarith

theorem form_deriv (β : E →ₗ[ℝ] E →ₗ[ℝ] ℝ) (hsym : ∀ u v, β u v = β v u) (u : E) :
    HasFDerivAt (fun u => 1 / 2 * β u u) (LinearMap.toContinuousLinearMap (β u)) u := by
  have h1 : HasFDerivAt (fun u => β u u) _ u := HasFDerivAt.comp (g := fun p : E × E => β.toContinuousBilinearMap p.1 p.2) (f := fun u => (u, u)) u
    (β.toContinuousBilinearMap.isBoundedBilinearMap.hasFDerivAt (u, u)) ((hasFDerivAt_id u).prodMk (hasFDerivAt_id u))
  refine (h1.const_mul (1 / 2)).congr_fderiv ?_
  ext v
  have h2 : ∀ a b, β.toContinuousBilinearMap a b = β a b := fun _ _ => rfl
  simp [h2, hsym v u]
  ring

/-- Global existence in an invariant subspace `S` for a quadratic equation whose energy `1/2 β(u,u)` grows at most like
`c β(u,u) + β(u,s)`; the solution stays in `S`. -/
theorem exists_solves_sub {f : E → E} (hf : IsQuad f) (S : Submodule ℝ E) (hS : ∀ u ∈ S, f u ∈ S) (β : E →ₗ[ℝ] E →ₗ[ℝ] ℝ)
    (hsym : ∀ u v, β u v = β v u) (hpos : ∀ u, u ≠ 0 → 0 < β u u) {c : ℝ} (hc : 0 ≤ c) (s : E)
    (hE : ∀ u ∈ S, β u (f u) ≤ c * β u u + β u s) (u0 : E) (h0 : u0 ∈ S) :
    ∃ y : ℝ → E, y 0 = u0 ∧ Solves f y ∧ ∀ t, y t ∈ S := by
  obtain ⟨p, hp⟩ := S.exists_isCompl
  let π : E →ₗ[ℝ] S := S.projectionOnto p hp
  have hπ : ∀ u : S, π u = u := fun u => Submodule.projectionOnto_apply_left hp u
  let g : S → S := fun u => π (f u)
  have hgf : ∀ u : S, ((g u : S) : E) = f u := fun u => by
    have := hπ ⟨f u, hS u u.2⟩
    simp only [g]
    exact congrArg Subtype.val this
  have hg : IsQuad g := (IsQuad.comp (f := fun u : S => (u : E)) ⟨S.subtype, fun _ => rfl⟩ hf).lin ⟨π, fun _ => rfl⟩
  let β' : S →ₗ[ℝ] S →ₗ[ℝ] ℝ := β.compl₁₂ S.subtype S.subtype
  have hβ' : ∀ u v : S, β' u v = β u v := fun u v => rfl
  have hpos' : ∀ u : S, u ≠ 0 → 0 < β' u u := fun u hu => hpos u (by simpa using hu)
  have hnn : ∀ u : E, 0 ≤ β u u := fun u => by
    rcases eq_or_ne u 0 with h | h
    · simp [h]
    · exact (hpos _ h).le
  obtain ⟨y, hy0, hy⟩ := exists_solves hg.field (V := fun u => 1 / 2 * β' u u) (dV := fun u => LinearMap.toContinuousLinearMap (β' u))
    (form_deriv β' fun u v => hsym u v) (fun u => by have := hnn u; rw [hβ']; linarith)
    (fun B => by
      obtain ⟨R, hR⟩ := form_coercive β' hpos' (2 * B)
      exact ⟨R, fun u hu => hR u (by linarith)⟩)
    (c := 2 * c + 1 + 1 / 2 * β s s) (by have := hnn s; linarith)
    (fun u => by
      show β' u (g u) ≤ _
      have h1 : β' u (g u) = β u (f u) := by rw [hβ', hgf]
      have h2 := hE u u.2
      have h3 := form_young β hsym hpos u s
      have h4 := hnn u
      have h5 := hnn s
      rw [h1, hβ']
      nlinarith [mul_nonneg h5 h4, mul_nonneg hc h4])
    ⟨u0, h0⟩
  refine ⟨fun t => y t, by simp only [hy0], fun t ht => ?_, fun t => (y t).2⟩
  have h1 := S.subtypeL.hasFDerivAt.comp_hasDerivWithinAt t (hy t ht)
  have h2 : S.subtypeL (g (y t)) = f (y t) := hgf (y t)
  rw [h2] at h1
  exact h1

end SpectralDNS

import Verif.Lemmas.Quadratic

/-!
# Solutions of quadratic equations stay in invariant subspaces
-/

namespace SpectralDNS

variable {E : Type*} [NormedAddCommGroup E] [NormedSpace ℝ E] [FiniteDimensional ℝ E]

/-- A solution of a quadratic equation that starts in an invariant subspace stays there: `(U, 0)` and `(U, P U)`, `P` a projection with the kernel `S`,
solve the same quadratic equation. -/
theorem solves_stays {f : E → E} (hf : IsQuad f) (S : Submodule ℝ E) (hS : ∀ u ∈ S, f u ∈ S) {T : ℝ} {U : ℝ → E} (hU : SolvesOn f T U)
    (h0 : U 0 ∈ S) : ∀ t ∈ Set.Icc 0 T, U t ∈ S := by
  obtain ⟨c, A, Q, h⟩ := id hf
  obtain ⟨p, hp⟩ := S.exists_isCompl
  let P : E →ₗ[ℝ] E := p.subtype.comp (p.projectionOnto S hp.symm)
  have hP0 : ∀ u ∈ S, P u = 0 := fun u hu => by
    have : p.projectionOnto S hp.symm u = 0 := by
      rw [← LinearMap.mem_ker, Submodule.ker_projectionOnto]
      exact hu
    simp only [P, LinearMap.comp_apply, this, map_zero]
  have hPP : ∀ u, P (P u) = P u := fun u => by
    have := Submodule.projectionOnto_apply_left hp.symm (p.projectionOnto S hp.symm u)
    simp only [P, LinearMap.comp_apply, Submodule.subtype_apply, this]
  have hPS : ∀ u, P u = 0 → u ∈ S := fun u hu => by
    have : p.projectionOnto S hp.symm u = 0 := Subtype.ext hu
    rwa [← LinearMap.mem_ker, Submodule.ker_projectionOnto] at this
  let F : E × E → E × E := fun z => (f z.1, P (A z.2 + Q z.1 z.2 + Q z.2 z.1 - Q z.2 z.2))
  have hq1 : ∀ g k : E × E →ₗ[ℝ] E, IsQuad fun z : E × E => Q (g z) (k z) := fun g k => ⟨0, 0, Q.compl₁₂ g k, fun z => by simp⟩
  have hF : IsQuad F := by
    refine IsQuad.prod (IsQuad.comp (f := fun z : E × E => z.1) ⟨LinearMap.fst .., fun _ => rfl⟩ hf)
      (IsQuad.lin ?_ ⟨P, fun _ => rfl⟩)
    refine ((IsQuad.add ?_ (hq1 (LinearMap.fst ..) (LinearMap.snd ..))).add (hq1 (LinearMap.snd ..) (LinearMap.fst ..))).sub
      (hq1 (LinearMap.snd ..) (LinearMap.snd ..))
    exact IsLin.quad ⟨A.comp (LinearMap.snd ..), fun _ => rfl⟩
  have hy : SolvesOn F T fun t => (U t, P (U t)) := fun t ht => by
    have e : P (f (U t)) = P (A (P (U t)) + Q (U t) (P (U t)) + Q (P (U t)) (U t) - Q (P (U t)) (P (U t))) := by
      have hv : U t - P (U t) ∈ S := hPS _ (by rw [map_sub, hPP, sub_self])
      have e1 := hP0 _ (hS _ hv)
      have e2 : A (P (U t)) + Q (U t) (P (U t)) + Q (P (U t)) (U t) - Q (P (U t)) (P (U t)) = f (U t) - f (U t - P (U t)) := by
        rw [h, h (U t - P (U t))]
        simp only [map_sub, LinearMap.sub_apply]
        abel
      rw [e2, map_sub, e1, sub_zero]
    have h1 := hU t ht
    have h2 := (LinearMap.toContinuousLinearMap P).hasFDerivAt.comp_hasDerivWithinAt t h1
    have h3 : F (U t, P (U t)) = (f (U t), P (f (U t))) := by simp only [F]; rw [← e]
    rw [h3]
    exact h1.prodMk h2
  have hz : SolvesOn F T fun t => (U t, (0 : E)) := fun t ht => by
    have h3 : F (U t, 0) = (f (U t), 0) := by simp [F]
    rw [h3]
    exact (hU t ht).prodMk (hasDerivWithinAt_const ..)
  intro t ht
  have := SolvesOn.unique hF.field hy hz (by simp only [hP0 _ h0]) ht
  exact hPS _ (congrArg Prod.snd this)

end SpectralDNS

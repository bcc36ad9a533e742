import Verif.Props.MHD
import Verif.Props.Reality

/-!
# C13: the two-dimensional Boussinesq solver (and C15 for it)
-/

namespace SpectralDNS.Periodic

open Complex

variable {ι X : Type*}

theorem cross2_2d_eq (w : ι → ℂ) (K : Fin 2 → ι → ℝ) (u : SArr 2 ι) :
    cross2_2d w K u = fun k => I * (K 0 k * u 1 k - K 1 k * u 0 k) := by
  funext k
  simp only [cross2_2d, cross1_2d, Pi.sub_apply, Pi.mul_apply]
  ring

theorem convBq_eq (w : SArr 2 ι) (rhs ur : SArr 2 ι × (ι → ℂ)) (T : Space ι X) (K : Fin 2 → ι → ℝ) :
    convBq w rhs ur T K =
      (Spec.lamb2 T.forward T.backward K ur.1, fun k => -Spec.fluxDiv T.forward T.backward K ur.1 ur.2 k) := by
  refine Prod.ext ?_ ?_
  · funext i
    fin_cases i <;> simp [convBq, Spec.lamb2, Function.update, cross2_2d_eq, Space.vbackward]
  · funext k
    simp [convBq, Spec.fluxDiv, Function.update, Fin.sum_univ_two, Space.vbackward]
    ring

theorem conv2D_lamb2 (w : ι → ℂ) (rhs u : SArr 2 ι) (T : Space ι X) (K : Fin 2 → ι → ℝ) :
    conv2DVortex w rhs u T K = Spec.lamb2 T.forward T.backward K u := by
  funext i
  fin_cases i <;> simp [conv2DVortex, Spec.lamb2, Function.update, cross2_2d_eq, Space.vbackward]

theorem leray_eq (K : Fin 2 → ι → ℝ) (v : SArr 2 ι) (i : Fin 2) (k : ι) :
    Spec.leray K v i k = v i k - (∑ j, v j k * (K_over_K2 K j k : ℂ)) * K i k := by
  unfold Spec.leray
  rw [← K2_eq]
  by_cases h : K2 K k = 0
  · rw [if_pos h, (K2_eq_zero K k).1 h i]
    simp
  · have h' : (K2 K k : ℂ) ≠ 0 := by exact_mod_cast h
    rw [if_neg h]
    simp only [K_over_K2, if_neg h, Spec.dot, Spec.at', Fin.sum_univ_two, ofReal_div]
    field_simp

/-! ## C13 -/

/-- Whether a mode is kept by the mask. -/
def keeps (mask : Option (ι → Bool)) (k : ι) : Bool := match mask with | none => true | some m => m k

theorem maskNyquist_keeps {d : ℕ} (mask : Option (ι → Bool)) (r : SArr d ι) (i : Fin d) (k : ι) :
    maskNyquist mask r i k = if keeps mask k then r i k else 0 := by
  rcases mask with _ | m
  · simp [maskNyquist, keeps]
  · by_cases h : m k <;> simp [maskNyquist, keeps, h]

/-- C13.  The right-hand side, at every mode: momentum is (convection - Ri rho e_y) without its gradient part, plus
viscosity; density is minus the divergence of the flux plus diffusion with coefficient nu/Pr.  The mask removes the nonlinear
terms only. -/
theorem C13_rhs (c : Ctx 2 ι X) (Ri Pr : ℝ) (w : SArr 2 ι) (rhs ur : SArr 2 ι × (ι → ℂ)) (k : ι) :
    (∀ i, (rhsBq c Ri Pr (fun r ur => convBq w r ur c.Tp c.K) rhs ur).1 i k =
      Spec.leray c.K (fun j k => (if keeps c.mask k then Spec.lamb2 c.Tp.forward c.Tp.backward c.K ur.1 j k else 0)
          - (if j = 1 then Ri * ur.2 k else 0)) i k
        - (c.nu * Spec.normSq (Spec.at' c.K k) : ℝ) * ur.1 i k) ∧
    (rhsBq c Ri Pr (fun r ur => convBq w r ur c.Tp c.K) rhs ur).2 k =
      -(if keeps c.mask k then Spec.fluxDiv c.Tp.forward c.Tp.backward c.K ur.1 ur.2 k else 0)
        - (c.nu / Pr * Spec.normSq (Spec.at' c.K k) : ℝ) * ur.2 k := by
  refine ⟨fun i => ?_, ?_⟩
  · rw [leray_eq, ← K2_eq]
    have e0 : (0 : Fin 2) ≠ 1 := by decide
    have e1 : (1 : Fin 2) ≠ 0 := by decide
    fin_cases i <;>
      simp only [rhsBq, convBq_eq, add_pressure_diffusionBq, maskNyquist_keeps, Fin.sum_univ_two, Fin.zero_eta, Fin.mk_one,
        Function.update_self, Function.update_of_ne e0, Function.update_of_ne e1, if_neg e0, if_true] <;>
      ring
  · rw [← K2_eq]
    simp only [rhsBq, convBq_eq, add_pressure_diffusionBq, maskNyquist_keeps]
    push_cast
    split <;> ring

/-- C13.  Divergence of the velocity right-hand side, for any convective term and any density. -/
theorem C13_rhs_divergence (c : Ctx 2 ι X) (Ri Pr : ℝ) (conv : SArr 2 ι × (ι → ℂ) → SArr 2 ι × (ι → ℂ) → SArr 2 ι × (ι → ℂ))
    (rhs ur : SArr 2 ι × (ι → ℂ)) (k : ι) :
    Spec.dot (Spec.at' c.K k) (Spec.at' (rhsBq c Ri Pr conv rhs ur).1 k) =
      -(c.nu * Spec.normSq (Spec.at' c.K k) : ℝ) * Spec.dot (Spec.at' c.K k) (Spec.at' ur.1 k) := by
  rw [← K2_eq]
  set r := maskNyquist c.mask (conv rhs ur).1 with hr
  have hP : ∀ i, (rhsBq c Ri Pr conv rhs ur).1 i k = r i k -
      (∑ j, r j k * (K_over_K2 c.K j k : ℂ) - Ri * ur.2 k * K_over_K2 c.K 1 k) * c.K i k - (c.nu * K2 c.K k : ℝ) * ur.1 i k
      - (if i = 1 then Ri * ur.2 k else 0) := by
    intro i
    fin_cases i <;> simp [rhsBq, add_pressure_diffusionBq, Function.update, hr]
    ring
  simp only [Spec.dot, Spec.at', hP, Fin.sum_univ_two, if_neg (by decide : ¬ (0 : Fin 2) = 1), if_true]
  by_cases h : K2 c.K k = 0
  · simp [(K2_eq_zero c.K k).1 h]
  · have h' : (K2 c.K k : ℂ) ≠ 0 := by exact_mod_cast h
    have e : (K2 c.K k : ℂ) = c.K 0 k * c.K 0 k + c.K 1 k * c.K 1 k := by
      simp [K2, Fin.sum_univ_two]
    simp only [K_over_K2, if_neg h, ofReal_div, ofReal_mul]
    field_simp
    rw [e]
    ring

/-- C13.  A divergence-free velocity stays divergence free for ever, whatever the density. -/
theorem C13_divergence_free_preserved (c : Ctx 2 ι X) (Ri Pr : ℝ)
    (conv : SArr 2 ι × (ι → ℂ) → SArr 2 ι × (ι → ℂ) → SArr 2 ι × (ι → ℂ))
    (est : SArr 2 ι × (ι → ℂ) → SArr 2 ι × (ι → ℂ) → SArr 2 ι × (ι → ℂ) → PyF) (fuel : ℕ) (m : Method) (ds : List ℝ)
    (tstep : ℕ) (rhs ur : SArr 2 ι × (ι → ℂ)) (hu : Spec.Solenoidal c.K ur.1) (c' : Closure (SArr 2 ι × (ι → ℂ)))
    (h : runSteps (rhsBq c Ri Pr conv) est fuel m tstep ds (getintegrator rhs ur) = some c') : Spec.Solenoidal c.K c'.u0.1 := by
  let W : Submodule ℝ (SArr 2 ι × (ι → ℂ)) := (Spec.solenoidal c.K).prod ⊤
  refine (run_mem _ W (W : Set (SArr 2 ι × (ι → ℂ))) (fun _ hu _ hw => W.add_mem hu hw) (fun r ub hub => ?_) est fuel m ds
    tstep rhs ur ⟨hu, trivial⟩ (fun _ => Or.inr ⟨hu, trivial⟩) c' h).1
  refine ⟨fun k => ?_, trivial⟩
  rw [C13_rhs_divergence, hub.1 k, mul_zero]

/-- Without density the right-hand side is that of NS2D without source. -/
theorem rhsBq_zero_rho (c : Ctx 2 ι X) (H : Additive c.Tp) (hS : c.Source = 0) (Ri Pr : ℝ) (w : SArr 2 ι) (w0 : ι → ℂ)
    (r : SArr 2 ι) (r' : SArr 2 ι × (ι → ℂ)) (u : SArr 2 ι) :
    rhsBq c Ri Pr (fun r ur => convBq w r ur c.Tp c.K) r' (u, 0) =
      (rhsNS c (fun r u => conv2DVortex w0 r u c.Tp c.K) r u, 0) := by
  have hz : c.Tp.backward (0 : ι → ℂ) = fun _ => 0 := H.backward_zero
  have hf : (fun k => -Spec.fluxDiv c.Tp.forward c.Tp.backward c.K u 0 k) = 0 := by
    funext k
    simp only [Spec.fluxDiv, hz, mul_zero, H.forward_zero, Finset.sum_const_zero, neg_zero]
    rfl
  simp only [rhsBq, rhsNS, ComputeRHS, convBq_eq, conv2D_lamb2, hf, hS]
  refine Prod.ext ?_ ?_
  · funext i k
    fin_cases i <;> simp [add_pressure_diffusionBq, add_pressure_diffusion, Function.update]
  · funext k
    rcases c.mask with _ | m <;> simp [add_pressure_diffusionBq, maskNyquist]

/-- C13.  With zero density the Boussinesq solver is NS2D (without source) for ever and the density stays zero. -/
theorem C13_reduction (c : Ctx 2 ι X) (H : Additive c.Tp) (hS : c.Source = 0) (Ri Pr : ℝ) (w : SArr 2 ι) (w0 : ι → ℂ)
    (est : SArr 2 ι → SArr 2 ι → SArr 2 ι → PyF)
    (est' : SArr 2 ι × (ι → ℂ) → SArr 2 ι × (ι → ℂ) → SArr 2 ι × (ι → ℂ) → PyF) (m : Method)
    (hest : m = .BS5 true → ∀ a b d, est' (a, 0) (b, 0) (d, 0) = est a b d) (fuel : ℕ) (ds : List ℝ) (tstep : ℕ)
    (rhs u : SArr 2 ι) (rhs' : SArr 2 ι × (ι → ℂ)) (r : Closure (SArr 2 ι))
    (h : runSteps (rhsNS c fun r u => conv2DVortex w0 r u c.Tp c.K) est fuel m tstep ds (getintegrator rhs u) = some r) :
    ∃ r', runSteps (rhsBq c Ri Pr fun r ur => convBq w r ur c.Tp c.K) est' fuel m tstep ds (getintegrator rhs' (u, 0)) = some r' ∧
      r'.u0 = (r.u0, 0) := by
  have Hi : Intertwines (LinearMap.inl ℝ (SArr 2 ι) (ι → ℂ)) (Set.univ) ⊤
      (rhsNS c fun r u => conv2DVortex w0 r u c.Tp c.K) (rhsBq c Ri Pr fun r ur => convBq w r ur c.Tp c.K) :=
    ⟨fun _ _ _ _ => trivial, fun _ _ _ => trivial, fun r r' u _ => rhsBq_zero_rho c H hS Ri Pr w w0 r r' u⟩
  exact run_map Hi est est' m (fun hm a b _ d _ => hest hm a b d) fuel ds tstep rhs u rhs' trivial (fun _ => Or.inr trivial) r h

/-- C13.  The mean density never changes. -/
theorem C13_mean_density (c : Ctx 2 ι X) (Ri Pr : ℝ) (w : SArr 2 ι) (k0 : ι) (hk : ∀ i, c.K i k0 = 0)
    (est : SArr 2 ι × (ι → ℂ) → SArr 2 ι × (ι → ℂ) → SArr 2 ι × (ι → ℂ) → PyF) (fuel : ℕ) (m : Method) (ds : List ℝ)
    (tstep : ℕ) (hm : m = .AB2 → tstep = 0) (rhs ur : SArr 2 ι × (ι → ℂ)) (c' : Closure (SArr 2 ι × (ι → ℂ)))
    (h : runSteps (rhsBq c Ri Pr fun r ur => convBq w r ur c.Tp c.K) est fuel m tstep ds (getintegrator rhs ur) = some c') :
    c'.u0.2 k0 = ur.2 k0 := by
  let W : Submodule ℝ (SArr 2 ι × (ι → ℂ)) :=
    { carrier := {p | p.2 k0 = 0}
      add_mem' := by intro a b (ha : a.2 k0 = 0) (hb : b.2 k0 = 0); simp [ha, hb]
      zero_mem' := rfl
      smul_mem' := by intro a b (hb : b.2 k0 = 0); simp [hb] }
  refine run_mem (rhsBq c Ri Pr fun r ur => convBq w r ur c.Tp c.K) W {p | p.2 k0 = ur.2 k0} ?_ ?_ est fuel m ds tstep rhs ur rfl
    (fun h => Or.inl (hm h)) c' h
  · intro v (hv : v.2 k0 = ur.2 k0) w' (hw : w'.2 k0 = 0)
    simp [hv, hw]
  · intro r v _
    show (rhsBq c Ri Pr (fun r ur => convBq w r ur c.Tp c.K) r v).2 k0 = 0
    rw [(C13_rhs c Ri Pr w r v k0).2]
    simp [Spec.fluxDiv, Spec.normSq, Spec.at', hk]

/-! ### A fluid at rest -/

/-- Grid functions varying along the second direction only, described by a set closed under products that the transforms
relate to the coefficients with `K_0 = 0`. -/
structure VerticalOnly (T : Space ι X) (K : Fin 2 → ι → ℝ) (Py : Set (X → ℝ)) : Prop where
  backward : ∀ a : ι → ℂ, (∀ k, K 0 k ≠ 0 → a k = 0) → T.backward a ∈ Py
  mul : ∀ f ∈ Py, ∀ g ∈ Py, (fun x => f x * g x) ∈ Py
  forward : ∀ f ∈ Py, ∀ k, K 0 k ≠ 0 → T.forward f k = 0

/-- States at rest except for a uniform velocity, with density depending on the second coordinate only. -/
def restState (K : Fin 2 → ι → ℝ) : Submodule ℝ (SArr 2 ι × (ι → ℂ)) where
  carrier := {p | (∀ k, (∃ i, K i k ≠ 0) → ∀ i, p.1 i k = 0) ∧ ∀ k, K 0 k ≠ 0 → p.2 k = 0}
  add_mem' := by
    intro a b ha hb
    exact ⟨fun k hk i => by simp [ha.1 k hk i, hb.1 k hk i], fun k hk => by simp [ha.2 k hk, hb.2 k hk]⟩
  zero_mem' := ⟨fun _ _ _ => rfl, fun _ _ => rfl⟩
  smul_mem' := by
    intro a b hb
    exact ⟨fun k hk i => by simp [hb.1 k hk i], fun k hk => by simp [hb.2 k hk]⟩

/-- C13.  A fluid at rest (up to a uniform velocity) with density depending on y only stays so for ever: the pressure
balances the buoyancy exactly. -/
theorem C13_rest (c : Ctx 2 ι X) (H : Additive c.Tp) (Py : Set (X → ℝ)) (hPy : VerticalOnly c.Tp c.K Py) (Ri Pr : ℝ)
    (w : SArr 2 ι) (est : SArr 2 ι × (ι → ℂ) → SArr 2 ι × (ι → ℂ) → SArr 2 ι × (ι → ℂ) → PyF) (fuel : ℕ) (m : Method)
    (ds : List ℝ) (tstep : ℕ) (rhs ur : SArr 2 ι × (ι → ℂ))
    (hu : ∀ k, (∃ i, c.K i k ≠ 0) → ∀ i, ur.1 i k = 0) (hrho : ∀ k, c.K 0 k ≠ 0 → ur.2 k = 0)
    (c' : Closure (SArr 2 ι × (ι → ℂ)))
    (h : runSteps (rhsBq c Ri Pr fun r ur => convBq w r ur c.Tp c.K) est fuel m tstep ds (getintegrator rhs ur) = some c') :
    (∀ k, (∃ i, c.K i k ≠ 0) → ∀ i, c'.u0.1 i k = 0) ∧ ∀ k, c.K 0 k ≠ 0 → c'.u0.2 k = 0 := by
  refine run_mem _ (restState c.K) (restState c.K : Set (SArr 2 ι × (ι → ℂ))) (fun _ hu _ hw => (restState c.K).add_mem hu hw)
    (fun r v hv => ?_) est fuel m ds tstep rhs ur ⟨hu, hrho⟩ (fun _ => Or.inr ⟨hu, hrho⟩) c' h
  obtain ⟨hv1, hv2⟩ := hv
  have hcurl : (fun k => I * (c.K 0 k * v.1 1 k - c.K 1 k * v.1 0 k)) = fun _ => (0 : ℂ) := by
    funext k
    by_cases hk : ∃ i, c.K i k ≠ 0
    · simp [hv1 k hk]
    · push Not at hk
      simp [hk]
  have hlamb : ∀ j k, Spec.lamb2 c.Tp.forward c.Tp.backward c.K v.1 j k = 0 := by
    intro j k
    simp only [Spec.lamb2, hcurl, H.backward_zero, mul_zero, neg_zero, H.forward_zero]
    fin_cases j <;> rfl
  refine ⟨fun k hk i => ?_, fun k hk => ?_⟩
  · have hK2 : Spec.normSq (Spec.at' c.K k) ≠ 0 := by
      rw [← K2_eq, Ne, K2_eq_zero]
      push Not
      exact hk
    rw [(C13_rhs c Ri Pr w r v k).1 i, hv1 k hk i]
    simp only [hlamb, Spec.leray, if_neg hK2, Spec.dot, Spec.at', Fin.sum_univ_two, mul_zero, sub_zero, ite_self,
      if_neg (by decide : ¬ (0 : Fin 2) = 1), if_true]
    by_cases hk0 : c.K 0 k = 0
    · have hk1 : (c.K 1 k : ℂ) ≠ 0 := by
        obtain ⟨j, hj⟩ := hk
        fin_cases j
        · exact absurd hk0 hj
        · exact_mod_cast hj
      have e : (Spec.normSq (fun i => c.K i k) : ℂ) = c.K 1 k * c.K 1 k := by
        simp [Spec.normSq, Fin.sum_univ_two, hk0]
        ring
      rw [show Spec.normSq (Spec.at' c.K k) = Spec.normSq (fun i => c.K i k) from rfl, e]
      fin_cases i
      · simp [hk0]
      · simp only [Fin.mk_one, if_true]
        field_simp
        ring
    · simp [hv2 k hk0]
  · rw [(C13_rhs c Ri Pr w r v k).2, hv2 k hk]
    have hflux : ∀ j, c.Tp.forward (fun x => c.Tp.backward (v.1 j) x * c.Tp.backward v.2 x) k = 0 := by
      intro j
      refine hPy.forward _ (hPy.mul _ (hPy.backward _ fun k hk => hv1 k ⟨0, hk⟩ j) _ (hPy.backward _ hv2)) k hk
    simp [Spec.fluxDiv, hflux]

/-- On the grids of the solver the functions `f(x,y) = g(y)` are such a set. -/
theorem verticalOnly_fft (N M : Fin 2 → ℕ) (hN : ∀ i, 0 < N i) (hNM : ∀ i, N i ≤ M i) (L : Fin 2 → ℝ) (hL : ∀ i, L i ≠ 0) :
    VerticalOnly (rspace N M) (scaledWaves N L) {f | ∃ g : Fin (M 1) → ℝ, ∀ x : Grid M, f x = g (x 1)} := by
  have hw : ∀ i k, scaledWaves N L i k ≠ 0 ↔ waves N i k ≠ 0 := by
    intro i k
    simp [scaledWaves, hL i, Real.pi_ne_zero]
  have hM : ∀ i, 0 < M i := fun i => lt_of_lt_of_le (hN i) (hNM i)
  refine ⟨fun a ha => ?_, ?_, ?_⟩
  · refine ⟨fun y => (∑ k, (rweight N k : ℂ) * a k * Complex.exp (2 * Real.pi * I * ((waves N 1 k : ℂ) * ((y : ℕ) : ℂ) / (M 1 : ℂ)))).re,
      fun x => ?_⟩
    simp only [rspace, dft]
    congr 1
    refine Finset.sum_congr rfl fun k _ => ?_
    by_cases hk : waves N 0 k = 0
    · congr 1
      have e : ∑ i : Fin 2, (waves N i k : ℂ) * ((x i : ℕ) : ℂ) / (M i : ℂ) = (waves N 1 k : ℂ) * ((x 1 : ℕ) : ℂ) / (M 1 : ℂ) := by
        rw [Fin.sum_univ_two]
        simp [hk]
      rw [kernel]
      exact congrArg (fun z => Complex.exp (2 * Real.pi * I * z)) e
    · rw [ha k ((hw 0 k).2 hk)]
      simp
  · rintro f ⟨g, hg⟩ f' ⟨g', hg'⟩
    exact ⟨fun y => g y * g' y, fun x => by simp [hg, hg']⟩
  · rintro f ⟨g, hg⟩ k hk
    rw [hw] at hk
    simp only [rspace, dft]
    have h2 := Finset.prod_univ_sum (fun i => (Finset.univ : Finset (Fin (M i)))) (fun i (x : Fin (M i)) =>
      (if h : i = 1 then ((g (h ▸ x) : ℝ) : ℂ) else 1) * Complex.exp (2 * Real.pi * I * (((-waves N i k : ℤ) : ℂ) * ((x : ℕ) : ℂ) / (M i : ℂ))))
    rw [Fintype.piFinset_univ] at h2
    have h3 : ∀ x : Grid M, (f x : ℂ) * (starRingEnd ℂ) (kernel (waves N) M k x) = ∏ i,
        (if h : i = 1 then ((g (h ▸ x i) : ℝ) : ℂ) else 1) *
          Complex.exp (2 * Real.pi * I * (((-waves N i k : ℤ) : ℂ) * ((x i : ℕ) : ℂ) / (M i : ℂ))) := by
      intro x
      rw [conj_kernel, Finset.mul_sum, Complex.exp_sum, Fin.prod_univ_two, Fin.prod_univ_two, hg]
      simp
      ring
    rw [Finset.sum_congr rfl fun x _ => h3 x, ← h2]
    rw [Finset.prod_eq_zero (Finset.mem_univ (0 : Fin 2)), mul_zero]
    simp only [dif_neg (by decide : ¬ (0 : Fin 2) = 1), one_mul]
    rw [sum_exp (M 0) (hM 0) (-waves N 0 k), if_neg]
    rw [dvd_neg]
    intro hdvd
    have := waves_bounds N k 0
    have h4 := Int.le_of_dvd (by positivity : (0 : ℤ) < |waves N 0 k|) ((dvd_abs _ _).2 hdvd)
    have h5 := hNM 0
    rw [le_abs] at h4
    omega

/-- C13 for the transforms of the solver: the equilibrium on every grid. -/
theorem C13_rest_fft (N M : Fin 2 → ℕ) (hN : ∀ i, 0 < N i) (hNM : ∀ i, N i ≤ M i) (L : Fin 2 → ℝ) (hL : ∀ i, L i ≠ 0)
    (nu : ℝ) (mask : Option (RModes N → Bool)) (S : SArr 2 (RModes N)) (Ri Pr : ℝ) (w : SArr 2 (RModes N))
    (est : SArr 2 (RModes N) × (RModes N → ℂ) → SArr 2 (RModes N) × (RModes N → ℂ) → SArr 2 (RModes N) × (RModes N → ℂ) → PyF)
    (fuel : ℕ) (m : Method) (ds : List ℝ) (tstep : ℕ) (rhs : SArr 2 (RModes N) × (RModes N → ℂ)) (rho : RModes N → ℂ)
    (hrho : ∀ k, waves N 0 k ≠ 0 → rho k = 0) (c' : Closure (SArr 2 (RModes N) × (RModes N → ℂ)))
    (h : runSteps (rhsBq ⟨rspace N M, scaledWaves N L, nu, mask, S⟩ Ri Pr fun r ur => convBq w r ur (rspace N M) (scaledWaves N L))
      est fuel m tstep ds (getintegrator rhs (0, rho)) = some c') :
    (∀ k, (∃ i, waves N i k ≠ 0) → ∀ i, c'.u0.1 i k = 0) ∧ ∀ k, waves N 0 k ≠ 0 → c'.u0.2 k = 0 := by
  have hw : ∀ i k, scaledWaves N L i k ≠ 0 ↔ waves N i k ≠ 0 := by
    intro i k
    simp [scaledWaves, hL i, Real.pi_ne_zero]
  have := C13_rest ⟨rspace N M, scaledWaves N L, nu, mask, S⟩ (dft_additive _ _) _ (verticalOnly_fft N M hN hNM L hL) Ri Pr w est
    fuel m ds tstep rhs (0, rho) (fun _ _ _ => rfl) (fun k hk => hrho k ((hw 0 k).1 hk)) c' h
  simpa only [hw] using this

/-- A density meeting the hypothesis: 1 at all modes with `k_0 = 0` of a 4 x 4 grid; two Euler steps. -/
example : ∃ c', runSteps (rhsBq ⟨rspace (![4, 4] : Fin 2 → ℕ) ![6, 6], scaledWaves ![4, 4] ![1, 1], 1, none, 0⟩ 1 2 fun r ur =>
      convBq 0 r ur (rspace ![4, 4] ![6, 6]) (scaledWaves ![4, 4] ![1, 1])) (fun _ _ _ => .fin 0) 1 .ForwardEuler 0 [0.1, 0.2]
      (getintegrator 0 (0, fun k => if waves ![4, 4] 0 k = 0 then 1 else 0)) = some c' ∧
    ∀ k, (∃ i, waves ![4, 4] i k ≠ 0) → ∀ i, c'.u0.1 i k = 0 := by
  obtain ⟨c', hc'⟩ : ∃ c', runSteps (rhsBq ⟨rspace (![4, 4] : Fin 2 → ℕ) ![6, 6], scaledWaves ![4, 4] ![1, 1], 1, none, 0⟩ 1 2
      fun r ur => convBq 0 r ur (rspace ![4, 4] ![6, 6]) (scaledWaves ![4, 4] ![1, 1])) (fun _ _ _ => .fin 0) 1 .ForwardEuler 0
      [0.1, 0.2] (getintegrator 0 (0, fun k => if waves ![4, 4] 0 k = 0 then 1 else 0)) = some c' := ⟨_, rfl⟩
  refine ⟨c', hc', (C13_rest_fft ![4, 4] ![6, 6] (fun i => by fin_cases i <;> simp) (fun i => by fin_cases i <;> simp) ![1, 1]
    (fun i => by fin_cases i <;> simp) 1 none 0 1 2 0 _ 1 .ForwardEuler _ 0 0 _ (fun k hk => if_neg hk) c' hc').1⟩

/-! ## C15 for Bq2D -/

/-- C15, Bq2D.  Here the modes removed by the mask must be zero initially (they stay zero, C16): the buoyancy is not masked. -/
theorem C15_Bq2D {R : ι → ι → Prop} (c : Ctx 2 ι X) (Ri Pr : ℝ) (H : RealModes R c)
    (hsym : ∀ m, c.mask = some m → ∀ k k', R k k' → m k' = m k) (w : SArr 2 ι)
    (est : SArr 2 ι × (ι → ℂ) → SArr 2 ι × (ι → ℂ) → SArr 2 ι × (ι → ℂ) → PyF) (fuel : ℕ) (m : Method) (ds : List ℝ)
    (tstep : ℕ) (rhs ur : SArr 2 ι × (ι → ℂ)) (hu : Spec.Hermitian R ur.1)
    (hr : Spec.Hermitian (d := 1) R fun _ => ur.2) (hz : ∀ k, keeps c.mask k = false → (∀ i, ur.1 i k = 0) ∧ ur.2 k = 0)
    (c' : Closure (SArr 2 ι × (ι → ℂ)))
    (h : runSteps (rhsBq c Ri Pr fun r ur => convBq w r ur c.Tp c.K) est fuel m tstep ds (getintegrator rhs ur) = some c') :
    Spec.Hermitian R c'.u0.1 ∧ Spec.Hermitian (d := 1) R fun _ => c'.u0.2 := by
  let W : Submodule ℝ (SArr 2 ι × (ι → ℂ)) :=
    { carrier := {p | (∀ k k', R k k' → (∀ i, p.1 i k' = (starRingEnd ℂ) (p.1 i k)) ∧ p.2 k' = (starRingEnd ℂ) (p.2 k)) ∧
        ∀ k, keeps c.mask k = false → (∀ i, p.1 i k = 0) ∧ p.2 k = 0}
      add_mem' := by
        intro a b ha hb
        exact ⟨fun k k' hR => ⟨fun i => by simp [(ha.1 k k' hR).1 i, (hb.1 k k' hR).1 i], by
            simp [(ha.1 k k' hR).2, (hb.1 k k' hR).2]⟩,
          fun k hk => ⟨fun i => by simp [(ha.2 k hk).1 i, (hb.2 k hk).1 i], by simp [(ha.2 k hk).2, (hb.2 k hk).2]⟩⟩
      zero_mem' := by refine ⟨fun k k' _ => ?_, fun k _ => ?_⟩ <;> simp
      smul_mem' := by
        intro a b hb
        exact ⟨fun k k' hR => ⟨fun i => by simp [(hb.1 k k' hR).1 i], by simp [(hb.1 k k' hR).2]⟩,
          fun k hk => ⟨fun i => by simp [(hb.2 k hk).1 i], by simp [(hb.2 k hk).2]⟩⟩ }
  have hW : ur ∈ W := ⟨fun k k' hR => ⟨hu k k' hR, hr k k' hR 0⟩, hz⟩
  have hmem := run_mem (rhsBq c Ri Pr fun r ur => convBq w r ur c.Tp c.K) W (W : Set (SArr 2 ι × (ι → ℂ)))
    (fun _ hu _ hw => W.add_mem hu hw) (fun r v hv => ?_) est fuel m ds tstep rhs ur hW (fun _ => Or.inr hW) c' h
  · exact ⟨fun k k' hR => (hmem.1 k k' hR).1, fun k k' hR _ => (hmem.1 k k' hR).2⟩
  · have hzero : ∀ k, keeps c.mask k = false → (∀ i, (rhsBq c Ri Pr (fun r ur => convBq w r ur c.Tp c.K) r v).1 i k = 0) ∧
        (rhsBq c Ri Pr (fun r ur => convBq w r ur c.Tp c.K) r v).2 k = 0 := by
      intro k hk
      refine ⟨fun i => ?_, ?_⟩
      · rw [(C13_rhs c Ri Pr w r v k).1, leray_eq]
        simp [hk, (hv.2 k hk).1, (hv.2 k hk).2]
      · rw [(C13_rhs c Ri Pr w r v k).2]
        simp [hk, (hv.2 k hk).2]
    refine ⟨fun k k' hR => ?_, hzero⟩
    have hkeep : keeps c.mask k' = keeps c.mask k := by
      rcases hm : c.mask with _ | mk
      · rfl
      · exact hsym mk hm k k' hR
    rcases H.odd k k' hR with h1 | ⟨mk, hmk, hk, hk'⟩
    · have hk2 : Spec.normSq (Spec.at' c.K k') = Spec.normSq (Spec.at' c.K k) := by
        rw [← K2_eq, ← K2_eq]; exact K2_sign fun i => Or.inl (h1 i)
      have hvu := (hv.1 k k' hR).1
      have hvr := (hv.1 k k' hR).2
      have hF := fun f => H.forward f k k' hR h1
      refine ⟨fun i => ?_, ?_⟩
      · rw [(C13_rhs c Ri Pr w r v k).1, (C13_rhs c Ri Pr w r v k').1, leray_eq, leray_eq]
        simp only [hk2, hkeep, map_sub, map_mul, map_sum, conj_ofReal, hvu, hvr, KoK2_odd h1, h1]
        have hl : ∀ j, Spec.lamb2 c.Tp.forward c.Tp.backward c.K v.1 j k' =
            (starRingEnd ℂ) (Spec.lamb2 c.Tp.forward c.Tp.backward c.K v.1 j k) := by
          intro j
          fin_cases j <;> exact hF _
        simp only [hl]
        fin_cases i <;> by_cases hkk : keeps c.mask k <;> simp [hkk, Fin.sum_univ_two]
        all_goals ring
      · rw [(C13_rhs c Ri Pr w r v k).2, (C13_rhs c Ri Pr w r v k').2]
        simp only [hk2, hkeep, map_sub, map_mul, map_neg, conj_ofReal, hvr, Spec.fluxDiv, Fin.sum_univ_two, hF, h1]
        by_cases hkk : keeps c.mask k <;> simp [hkk]
    · have a1 := hzero k (by simp [keeps, hmk, hk])
      have a2 := hzero k' (by simp [keeps, hmk, hk'])
      exact ⟨fun i => by rw [a1.1, a2.1, map_zero], by rw [a1.2, a2.2, map_zero]⟩

end SpectralDNS.Periodic

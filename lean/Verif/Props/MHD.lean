import Verif.Lemmas.Convection
import Verif.Lemmas.Fourier
import Verif.Spec.MHD
import Verif.Props.Convection
import Mathlib.LinearAlgebra.Prod

/-!
# C11, C12 and the magnetic part of C05: the MHD solver
-/

namespace SpectralDNS.Periodic

open Complex

variable {ι X : Type*}

/-- What is used of the transforms: they are additive. -/
structure Additive (T : Space ι X) : Prop where
  forward : ∀ f g : X → ℝ, T.forward (fun x => f x + g x) = fun k => T.forward f k + T.forward g k
  backward : ∀ a b : ι → ℂ, T.backward (fun k => a k + b k) = fun x => T.backward a x + T.backward b x

theorem Additive.forward_zero {T : Space ι X} (H : Additive T) : T.forward (fun _ => 0) = fun _ => 0 := by
  have h := H.forward (fun _ => 0) (fun _ => 0)
  funext k
  have h1 := congrFun h k
  simp only [add_zero] at h1
  exact left_eq_add.1 h1

theorem Additive.backward_zero {T : Space ι X} (H : Additive T) : T.backward (fun _ => 0) = fun _ => 0 := by
  have h := H.backward (fun _ => 0) (fun _ => 0)
  funext k
  have h1 := congrFun h k
  simp only [add_zero] at h1
  exact left_eq_add.1 h1

theorem Additive.forward_neg {T : Space ι X} (H : Additive T) (f : X → ℝ) :
    T.forward (fun x => -f x) = fun k => -T.forward f k := by
  have h := H.forward f (fun x => -f x)
  simp only [add_neg_cancel, H.forward_zero] at h
  funext k
  have h1 := congrFun h k
  linear_combination -h1

theorem Additive.backward_neg {T : Space ι X} (H : Additive T) (a : ι → ℂ) :
    T.backward (fun k => -a k) = fun x => -T.backward a x := by
  have h := H.backward a (fun x => -a x)
  simp only [add_neg_cancel, H.backward_zero] at h
  funext k
  have h1 := congrFun h k
  linear_combination -h1

/-- Every transform given by a kernel is additive, in particular those of the solvers. -/
theorem dft_additive [Fintype ι] [Fintype X] (e : ι → X → ℂ) (w : ι → ℝ) : Additive (dft e w) where
  forward f g := by
    funext k
    simp only [dft, ofReal_add, add_mul, Finset.sum_add_distrib, mul_add]
  backward a b := by
    funext x
    simp only [dft, mul_add, add_mul, Finset.sum_add_distrib, add_re]

/-! ## C11 -/

/-- C11.  The divergence of the magnetic right-hand side at every mode, for any product tensor `ZZ` (whatever the transforms
and the dealiasing), any mask. -/
theorem C11_magnetic_rhs_divergence (c : Ctx 3 ι X) (eta : ℝ) (ZZ : SArr 3 ι × SArr 3 ι → Fin 3 → Fin 3 → ι → ℂ)
    (rhs ub : SArr 3 ι × SArr 3 ι) (k : ι) :
    Spec.dot (Spec.at' c.K k) (Spec.at' (rhsMHD c eta (fun _ ub => set_Elsasser (ZZ ub) c.K) rhs ub).2 k) =
      -(eta * Spec.normSq (Spec.at' c.K k) : ℝ) * Spec.dot (Spec.at' c.K k) (Spec.at' ub.2 k) := by
  have e2 : (2.0 : ℂ) = 2 := by norm_num
  rw [← K2_eq]
  rcases hm : c.mask with _ | m <;>
    simp only [rhsMHD, add_pressure_diffusionMHD, set_Elsasser, maskNyquist, hm, Spec.dot, Spec.at', Fin.sum_univ_three, e2,
      ofReal_mul] <;> ring

/-- C11.  The divergence of the velocity right-hand side, for any convective term. -/
theorem C11_velocity_rhs_divergence (c : Ctx 3 ι X) (eta : ℝ)
    (conv : SArr 3 ι × SArr 3 ι → SArr 3 ι × SArr 3 ι → SArr 3 ι × SArr 3 ι) (rhs ub : SArr 3 ι × SArr 3 ι) (k : ι) :
    Spec.dot (Spec.at' c.K k) (Spec.at' (rhsMHD c eta conv rhs ub).1 k) =
      -(c.nu * Spec.normSq (Spec.at' c.K k) : ℝ) * Spec.dot (Spec.at' c.K k) (Spec.at' ub.1 k) := by
  set r := maskNyquist c.mask (conv rhs ub).1 with hr
  have h1 : Spec.at' (rhsMHD c eta conv rhs ub).1 k = fun i =>
      (r i k - (∑ j, r j k * (K_over_K2 c.K j k : ℂ)) * c.K i k - (c.nu * K2 c.K k : ℝ) * ub.1 i k) := rfl
  rw [h1, dot_sub, dot_sub, dot_K_P, sum_KoK2 c.K k (fun i => r i k), dot_smul, K2_eq]
  have h3 : Spec.at' ub.1 k = fun i => ub.1 i k := rfl
  rw [h3]
  ring

/-- C11.  Every integrator, any number of steps of any sizes: divergence-free velocity and magnetic fields stay divergence
free. -/
theorem C11_divergence_free_preserved (c : Ctx 3 ι X) (eta : ℝ) (ZZ : SArr 3 ι × SArr 3 ι → Fin 3 → Fin 3 → ι → ℂ)
    (est : SArr 3 ι × SArr 3 ι → SArr 3 ι × SArr 3 ι → SArr 3 ι × SArr 3 ι → PyF) (fuel : ℕ) (m : Method) (ds : List ℝ)
    (tstep : ℕ) (rhs ub : SArr 3 ι × SArr 3 ι) (hu : Spec.Solenoidal c.K ub.1) (hb : Spec.Solenoidal c.K ub.2)
    (c' : Closure (SArr 3 ι × SArr 3 ι))
    (h : runSteps (rhsMHD c eta fun _ ub => set_Elsasser (ZZ ub) c.K) est fuel m tstep ds (getintegrator rhs ub) = some c') :
    Spec.Solenoidal c.K c'.u0.1 ∧ Spec.Solenoidal c.K c'.u0.2 := by
  let W : Submodule ℝ (SArr 3 ι × SArr 3 ι) := (Spec.solenoidal c.K).prod (Spec.solenoidal c.K)
  refine run_mem _ W (W : Set (SArr 3 ι × SArr 3 ι)) (fun _ hu _ hw => W.add_mem hu hw) (fun r ub hub => ?_) est fuel m ds
    tstep rhs ub ⟨hu, hb⟩ (fun _ => Or.inr ⟨hu, hb⟩) c' h
  refine ⟨fun k => ?_, fun k => ?_⟩
  · rw [C11_velocity_rhs_divergence, hub.1 k, mul_zero]
  · rw [C11_magnetic_rhs_divergence, hub.2 k, mul_zero]

/-- C11.  Only the magnetic field needs to start divergence free for the magnetic field to stay so. -/
theorem C11_magnetic_only (c : Ctx 3 ι X) (eta : ℝ) (ZZ : SArr 3 ι × SArr 3 ι → Fin 3 → Fin 3 → ι → ℂ)
    (est : SArr 3 ι × SArr 3 ι → SArr 3 ι × SArr 3 ι → SArr 3 ι × SArr 3 ι → PyF) (fuel : ℕ) (m : Method) (ds : List ℝ)
    (tstep : ℕ) (rhs ub : SArr 3 ι × SArr 3 ι) (hb : Spec.Solenoidal c.K ub.2) (c' : Closure (SArr 3 ι × SArr 3 ι))
    (h : runSteps (rhsMHD c eta fun _ ub => set_Elsasser (ZZ ub) c.K) est fuel m tstep ds (getintegrator rhs ub) = some c') :
    Spec.Solenoidal c.K c'.u0.2 := by
  let W : Submodule ℝ (SArr 3 ι × SArr 3 ι) := (⊤ : Submodule ℝ (SArr 3 ι)).prod (Spec.solenoidal c.K)
  refine (run_mem _ W (W : Set (SArr 3 ι × SArr 3 ι)) (fun _ hu _ hw => W.add_mem hu hw) (fun r ub hub => ?_) est fuel m ds
    tstep rhs ub ⟨trivial, hb⟩ (fun _ => Or.inr ⟨trivial, hb⟩) c' h).2
  refine ⟨trivial, fun k => ?_⟩
  rw [C11_magnetic_rhs_divergence, hub.2 k, mul_zero]

/-- The convective term of the solver is one of those covered by C11. -/
theorem convMHD_eq_set_Elsasser (T : Space ι X) (K : Fin 3 → ι → ℝ) (ub : SArr 3 ι × SArr 3 ι) : convMHD ub T K =
    set_Elsasser (fun i j => T.forward fun x =>
      (T.backward (ub.1 i) x + T.backward (ub.2 i) x) * (T.backward (ub.1 j) x - T.backward (ub.2 j) x)) K := rfl

/-- A run: one mode with wavenumber (1,0,0), magnetic field (0,1,2), a product tensor that is not symmetric. -/
example : let c : Ctx 3 Unit Unit := ⟨⟨fun _ _ => 0, fun _ _ => 0⟩, fun i _ => if i = 0 then 1 else 0, 1, none, 0⟩
    let ZZ : SArr 3 Unit × SArr 3 Unit → Fin 3 → Fin 3 → Unit → ℂ := fun _ i j _ => i + 2 * j
    ∃ c', runSteps (rhsMHD c 0.1 fun _ ub => set_Elsasser (ZZ ub) c.K) (fun _ _ _ => .fin 0) 1 .RK4 0 [0.1, 0.3]
      (getintegrator 0 (0, fun i _ => i)) = some c' ∧ Spec.Solenoidal c.K c'.u0.2 := by
  intro c ZZ
  obtain ⟨c', hc'⟩ : ∃ c', runSteps (rhsMHD c 0.1 fun _ ub => set_Elsasser (ZZ ub) c.K) (fun _ _ _ => .fin 0) 1 .RK4 0
    [0.1, 0.3] (getintegrator 0 (0, fun i _ => i)) = some c' := ⟨_, rfl⟩
  refine ⟨c', hc', C11_magnetic_only c _ ZZ _ 1 .RK4 _ 0 0 _ (fun k => ?_) c' hc'⟩
  simp [Spec.dot, Spec.at', c, Fin.sum_univ_three]

/-! ## C12 -/

theorem convMHD_eq (T : Space ι X) (H : Additive T) (K : Fin 3 → ι → ℝ) (ub : SArr 3 ι × SArr 3 ι) :
    convMHD ub T K = (fun i k => -Spec.stressDiv T.forward T.backward K ub.1 ub.2 i k,
      Spec.induction T.forward T.backward K ub.1 ub.2) := by
  have e2 : (2.0 : ℂ) = 2 := by norm_num
  obtain ⟨u, b⟩ := ub
  have hs : ∀ i j k, T.forward (fun x => (T.backward (u i) x + T.backward (b i) x) * (T.backward (u j) x - T.backward (b j) x)) k +
      T.forward (fun x => (T.backward (u j) x + T.backward (b j) x) * (T.backward (u i) x - T.backward (b i) x)) k =
      2 * T.forward (fun x => T.backward (u i) x * T.backward (u j) x - T.backward (b i) x * T.backward (b j) x) k := by
    intro i j k
    have h1 := congrFun (H.forward
      (fun x => (T.backward (u i) x + T.backward (b i) x) * (T.backward (u j) x - T.backward (b j) x))
      (fun x => (T.backward (u j) x + T.backward (b j) x) * (T.backward (u i) x - T.backward (b i) x))) k
    have h2 := congrFun (H.forward
      (fun x => T.backward (u i) x * T.backward (u j) x - T.backward (b i) x * T.backward (b j) x)
      (fun x => T.backward (u i) x * T.backward (u j) x - T.backward (b i) x * T.backward (b j) x)) k
    rw [← h1, two_mul, ← h2]
    congr 2
    funext x
    ring
  have hd : ∀ i j k, T.forward (fun x => (T.backward (u j) x + T.backward (b j) x) * (T.backward (u i) x - T.backward (b i) x)) k -
      T.forward (fun x => (T.backward (u i) x + T.backward (b i) x) * (T.backward (u j) x - T.backward (b j) x)) k =
      2 * T.forward (fun x => T.backward (b j) x * T.backward (u i) x - T.backward (u j) x * T.backward (b i) x) k := by
    intro i j k
    have h1 := congrFun (H.forward
      (fun x => (T.backward (u j) x + T.backward (b j) x) * (T.backward (u i) x - T.backward (b i) x))
      (fun x => -((T.backward (u i) x + T.backward (b i) x) * (T.backward (u j) x - T.backward (b j) x)))) k
    have h2 := congrFun (H.forward
      (fun x => T.backward (b j) x * T.backward (u i) x - T.backward (u j) x * T.backward (b i) x)
      (fun x => T.backward (b j) x * T.backward (u i) x - T.backward (u j) x * T.backward (b i) x)) k
    rw [H.forward_neg] at h1
    rw [sub_eq_add_neg, ← h1, two_mul, ← h2]
    congr 2
    funext x
    ring
  refine Prod.ext ?_ ?_
  · funext i k
    simp only [convMHD, divergenceConvection, set_Elsasser, Space.vbackward, hs, Spec.stressDiv, Fin.sum_univ_three, e2]
    ring
  · funext i k
    simp only [convMHD, divergenceConvection, set_Elsasser, Space.vbackward, hd, Spec.induction, Fin.sum_univ_three, e2]
    ring

/-- C12.  The Elsasser form computes the nonlinear terms of MHD, for additive transforms. -/
theorem C12_elsasser (T : Space ι X) (H : Additive T) (K : Fin 3 → ι → ℝ) (ub : SArr 3 ι × SArr 3 ι) (i : Fin 3) (k : ι) :
    (convMHD ub T K).1 i k = -Spec.stressDiv T.forward T.backward K ub.1 ub.2 i k ∧
      (convMHD ub T K).2 i k = Spec.induction T.forward T.backward K ub.1 ub.2 i k := by
  rw [convMHD_eq T H]
  exact ⟨rfl, rfl⟩

/-- With a vanishing magnetic field the right-hand side is that of NS with the Divergence form and no source, and the
magnetic part vanishes. -/
theorem rhsMHD_zero_b (c : Ctx 3 ι X) (H : Additive c.Tp) (hS : c.Source = 0) (eta : ℝ) (w : Scratch 3 ι X)
    (r : SArr 3 ι) (r' : SArr 3 ι × SArr 3 ι) (u : SArr 3 ι) :
    rhsMHD c eta (fun _ ub => convMHD ub c.Tp c.K) r' (u, 0) = (rhsNS c (fun r u => convDivergence w r u c.Tp c.K) r u, 0) := by
  have hz : ∀ i : Fin 3, c.Tp.backward ((0 : SArr 3 ι) i) = fun _ => 0 := fun i => H.backward_zero
  have h1 : convMHD (u, 0) c.Tp c.K = (convDivergence w r u c.Tp c.K, 0) := by
    rw [convMHD_eq _ H]
    refine Prod.ext ?_ ?_
    · funext i k
      refine Eq.trans ?_ (convDivergence_eq w r u c.Tp c.K i k).symm
      simp only [Spec.stressDiv, Spec.divergenceForm, hz, mul_zero, sub_zero]
    · funext i k
      simp only [Spec.induction, hz, mul_zero, zero_mul, sub_zero, H.forward_zero, Finset.sum_const_zero]
      rfl
  unfold rhsMHD
  simp only [h1]
  refine Prod.ext ?_ ?_
  · funext i k
    simp only [rhsNS, ComputeRHS, add_pressure_diffusionMHD, add_pressure_diffusion, hS, Pi.zero_apply, add_zero]
  · funext i k
    rcases hm : c.mask with _ | m <;> simp [add_pressure_diffusionMHD, maskNyquist]

/-- C12.  With `b = 0` initially the MHD solver is the NS solver (Divergence form, no source) for ever: same velocity after
any number of steps of any integrator (for the adaptive one, when the error estimate ignores a vanishing magnetic part), and
the magnetic field stays zero. -/
theorem C12_reduction (c : Ctx 3 ι X) (H : Additive c.Tp) (hS : c.Source = 0) (eta : ℝ) (w : Scratch 3 ι X)
    (est : SArr 3 ι → SArr 3 ι → SArr 3 ι → PyF)
    (est' : SArr 3 ι × SArr 3 ι → SArr 3 ι × SArr 3 ι → SArr 3 ι × SArr 3 ι → PyF) (m : Method)
    (hest : m = .BS5 true → ∀ a b d, est' (a, 0) (b, 0) (d, 0) = est a b d) (fuel : ℕ) (ds : List ℝ) (tstep : ℕ)
    (rhs u : SArr 3 ι) (rhs' : SArr 3 ι × SArr 3 ι) (r : Closure (SArr 3 ι))
    (h : runSteps (rhsNS c fun r u => convDivergence w r u c.Tp c.K) est fuel m tstep ds (getintegrator rhs u) = some r) :
    ∃ r', runSteps (rhsMHD c eta fun _ ub => convMHD ub c.Tp c.K) est' fuel m tstep ds (getintegrator rhs' (u, 0)) = some r' ∧
      r'.u0 = (r.u0, 0) := by
  have Hi : Intertwines (LinearMap.inl ℝ (SArr 3 ι) (SArr 3 ι)) (Set.univ) ⊤
      (rhsNS c fun r u => convDivergence w r u c.Tp c.K) (rhsMHD c eta fun _ ub => convMHD ub c.Tp c.K) :=
    ⟨fun _ _ _ _ => trivial, fun _ _ _ => trivial, fun r r' u _ => rhsMHD_zero_b c H hS eta w r r' u⟩
  exact run_map Hi est est' m (fun hm a b _ d _ => hest hm a b d) fuel ds tstep rhs u rhs' trivial (fun _ => Or.inr trivial) r h

/-- Change of sign of the magnetic field. -/
def flipB : SArr 3 ι × SArr 3 ι →ₗ[ℝ] SArr 3 ι × SArr 3 ι where
  toFun p := (p.1, -p.2)
  map_add' _ _ := Prod.ext rfl (neg_add _ _)
  map_smul' _ _ := Prod.ext rfl (smul_neg _ _).symm

theorem rhsMHD_flip (c : Ctx 3 ι X) (H : Additive c.Tp) (eta : ℝ) (r r' ub : SArr 3 ι × SArr 3 ι) :
    rhsMHD c eta (fun _ ub => convMHD ub c.Tp c.K) r' (ub.1, -ub.2) =
      ((rhsMHD c eta (fun _ ub => convMHD ub c.Tp c.K) r ub).1, -(rhsMHD c eta (fun _ ub => convMHD ub c.Tp c.K) r ub).2) := by
  have hz : ∀ i : Fin 3, c.Tp.backward ((-ub.2) i) = fun x => -c.Tp.backward (ub.2 i) x := fun i => H.backward_neg (ub.2 i)
  have h1 : convMHD (ub.1, -ub.2) c.Tp c.K = ((convMHD ub c.Tp c.K).1, -(convMHD ub c.Tp c.K).2) := by
    rw [convMHD_eq _ H, convMHD_eq _ H]
    refine Prod.ext ?_ ?_
    · funext i k
      simp only [Spec.stressDiv, hz, neg_mul_neg]
    · funext i k
      simp only [Spec.induction, hz]
      rw [Pi.neg_apply, Pi.neg_apply, Spec.induction, ← Finset.sum_neg_distrib]
      refine Finset.sum_congr rfl fun j _ => ?_
      rw [← mul_neg, ← congrFun (H.forward_neg _) k]
      congr 2
      funext x
      ring
  unfold rhsMHD
  simp only [h1]
  refine Prod.ext rfl ?_
  funext i k
  rcases hm : c.mask with _ | m <;> simp only [add_pressure_diffusionMHD, maskNyquist, Pi.neg_apply] <;> ring

/-- C12.  Symmetry under `b -> -b`, for every integrator and any number of steps. -/
theorem C12_flip (c : Ctx 3 ι X) (H : Additive c.Tp) (eta : ℝ)
    (est est' : SArr 3 ι × SArr 3 ι → SArr 3 ι × SArr 3 ι → SArr 3 ι × SArr 3 ι → PyF) (m : Method)
    (hest : m = .BS5 true → ∀ a b d, est' (a.1, -a.2) (b.1, -b.2) (d.1, -d.2) = est a b d) (fuel : ℕ) (ds : List ℝ)
    (tstep : ℕ) (rhs rhs' u b : _) (r : Closure (SArr 3 ι × SArr 3 ι))
    (h : runSteps (rhsMHD c eta fun _ ub => convMHD ub c.Tp c.K) est fuel m tstep ds (getintegrator rhs (u, b)) = some r) :
    ∃ r', runSteps (rhsMHD c eta fun _ ub => convMHD ub c.Tp c.K) est' fuel m tstep ds (getintegrator rhs' (u, -b)) = some r' ∧
      r'.u0 = (r.u0.1, -r.u0.2) := by
  have Hi : Intertwines (flipB (ι := ι)) (Set.univ) ⊤ (rhsMHD c eta fun _ ub => convMHD ub c.Tp c.K)
      (rhsMHD c eta fun _ ub => convMHD ub c.Tp c.K) :=
    ⟨fun _ _ _ _ => trivial, fun _ _ _ => trivial, fun r r' u _ => rhsMHD_flip c H eta r r' u⟩
  exact run_map Hi est est' m (fun hm a b _ d _ => hest hm a b d) fuel ds tstep rhs (u, b) rhs' trivial
    (fun _ => Or.inr trivial) r h

/-- The hypotheses of C12 hold for the transforms of the solvers, on every grid. -/
example (N M : Fin 3 → ℕ) : Additive (rspace N M) := dft_additive _ _

/-- The induction term is not trivially zero: one point, one mode with wavenumber (1,0,0), `u = (0,1,0)`, `b = (1,0,0)`. -/
example : (convMHD (ι := Unit) (X := Unit) (fun i _ => if i = 1 then 1 else 0, fun i _ => if i = 0 then 1 else 0)
    ⟨fun f _ => (f () : ℂ), fun a _ => (a ()).re⟩ (fun i _ => if i = 0 then 1 else 0)).2 1 () = I := by
  have H : Additive (ι := Unit) (X := Unit) ⟨fun f _ => (f () : ℂ), fun a _ => (a ()).re⟩ :=
    ⟨fun f g => by funext k; simp, fun a b => by funext x; simp⟩
  rw [(C12_elsasser _ H _ _ 1 ()).2]
  simp [Spec.induction, Fin.sum_univ_three]

/-! ## C05 for MHD -/

/-- C05, MHD.  The means of the velocity and of the magnetic field never change. -/
theorem C05_mean_MHD (c : Ctx 3 ι X) (eta : ℝ) (k0 : ι) (hk : ∀ i, c.K i k0 = 0)
    (est : SArr 3 ι × SArr 3 ι → SArr 3 ι × SArr 3 ι → SArr 3 ι × SArr 3 ι → PyF) (fuel : ℕ) (m : Method) (ds : List ℝ)
    (tstep : ℕ) (hm : m = .AB2 → tstep = 0) (rhs ub : SArr 3 ι × SArr 3 ι) (c' : Closure (SArr 3 ι × SArr 3 ι))
    (h : runSteps (rhsMHD c eta fun _ ub => convMHD ub c.Tp c.K) est fuel m tstep ds (getintegrator rhs ub) = some c') :
    ∀ i, c'.u0.1 i k0 = ub.1 i k0 ∧ c'.u0.2 i k0 = ub.2 i k0 := by
  refine run_mem _ ((zeroAt 3 k0).prod (zeroAt 3 k0)) {v | ∀ i, v.1 i k0 = ub.1 i k0 ∧ v.2 i k0 = ub.2 i k0} ?_ ?_ est fuel m
    ds tstep rhs ub (fun _ => ⟨rfl, rfl⟩) (fun h => Or.inl (hm h)) c' h
  · intro v hv w hw i
    have h1 := hw.1 i
    have h2 := hw.2 i
    simp [(hv i).1, (hv i).2, h1, h2]
  · intro r v _
    have h2 : K2 c.K k0 = 0 := (K2_eq_zero _ _).2 hk
    constructor <;> intro i <;> rcases hmask : c.mask with _ | mk <;>
      simp [rhsMHD, add_pressure_diffusionMHD, convMHD, divergenceConvection, set_Elsasser, maskNyquist, hmask, hk, h2]

end SpectralDNS.Periodic

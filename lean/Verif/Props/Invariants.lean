import Verif.Lemmas.Invariants
import Verif.Props.Solenoidal
import Mathlib.Analysis.SpecialFunctions.ExpDeriv

/-!
# C81: quadratic invariants of the semi-discrete equations

The equations `du/dt = rhs(u)` integrated by the periodic solvers conserve, without viscosity and source, the same quadratic quantities as
the continuous equations.  What is needed of the transforms is stated: adjointness for the Vortex and Skewed forms and for both helicities,
and the product rule (true with the 3/2-rule, `Dealias.leibniz_padded`) for the others.
-/

namespace SpectralDNS.Periodic

open Complex Spec

variable {ι X : Type*} {d : ℕ}

/-! ## Solutions stay divergence free and unmasked -/

theorem heat_zero (lam : ℝ) (f : ℝ → ℂ) (h : ∀ t, HasDerivAt f (-(lam : ℂ) * f t) t) (h0 : f 0 = 0) (t : ℝ) : f t = 0 := by
  have he : ∀ t : ℝ, HasDerivAt (fun s : ℝ => Complex.exp (lam * s)) (Complex.exp (lam * t) * lam) t := fun t => by
    have h1 : HasDerivAt (fun s : ℝ => (lam : ℂ) * s) ((lam : ℂ) * 1) t := (ofRealCLM.hasDerivAt (x := t)).const_mul (lam : ℂ)
    simpa using h1.cexp
  have hg : ∀ t, HasDerivAt (fun s : ℝ => Complex.exp (lam * s) * f s) 0 t := fun t => by
    refine ((he t).mul (h t)).congr_deriv ?_
    ring
  have hc := is_const_of_deriv_eq_zero (fun t => (hg t).differentiableAt) (fun t => (hg t).deriv) t 0
  simp only [h0, mul_zero] at hc
  exact (mul_eq_zero.1 hc).resolve_left (Complex.exp_ne_zero _)

theorem dot_hasDeriv (K : Fin d → ι → ℝ) (U : ℝ → SArr d ι) (r : SArr d ι) (t : ℝ) (k : ι) (h : ∀ i, HasDerivAt (fun s => U s i k) (r i k) t) :
    HasDerivAt (fun s => dot (at' K k) (at' (U s) k)) (dot (at' K k) (at' r k)) t :=
  HasDerivAt.fun_sum fun i (_ : i ∈ Finset.univ) => (h i).const_mul _

/-- C81.  Solutions of the momentum equation that start divergence free and vanish on the masked modes do so at all times. -/
theorem C81_solutions_admissible (c : Ctx d ι X) (conv : SArr d ι → SArr d ι → SArr d ι) (rhs : SArr d ι) (hs : Solenoidal c.K c.Source)
    (hsm : ∀ i, Vanishes c.mask (c.Source i)) (U : ℝ → SArr d ι) (hU : ∀ t i k, HasDerivAt (fun s => U s i k) (rhsNS c conv rhs (U t) i k) t)
    (h0 : Solenoidal c.K (U 0)) (hm : ∀ i, Vanishes c.mask (U 0 i)) (t : ℝ) :
    Solenoidal c.K (U t) ∧ ∀ i, Vanishes c.mask (U t i) := by
  constructor
  · intro k
    refine heat_zero (c.nu * normSq (at' c.K k)) (fun s => dot (at' c.K k) (at' (U s) k)) (fun t => ?_) (h0 k) t
    refine (dot_hasDeriv c.K U _ t k fun i => hU t i k).congr_deriv ?_
    rw [C01_rhs_divergence, hs k, zero_sub, neg_mul]
  · intro i k hk
    refine heat_zero (c.nu * K2 c.K k) (fun s => U s i k) (fun t => ?_) (hm i k hk) t
    refine (hU t i k).congr_deriv ?_
    simp [rhsNS, ComputeRHS, add_pressure_diffusion, maskNyquist_keeps, hk, hsm i k hk]

theorem const_of_hasDeriv_zero (f : ℝ → ℝ) (h : ∀ t, HasDerivAt f 0 t) (t : ℝ) : f t = f 0 :=
  is_const_of_deriv_eq_zero (fun t => (h t).differentiableAt) (fun t => (h t).deriv) t 0

variable [Fintype ι] [Fintype X]

/-! ## Energy, all four forms -/

/-- Convection in any of the four forms does no work on a divergence-free velocity. -/
theorem power_conv (T : Space ι X) (H : Additive T) (K : Fin 3 → ι → ℝ) (w : ι → ℝ) (a : ℝ) (hadj : Adjoint w a T.forward T.backward)
    (mask : Option (ι → Bool)) (name : String) (conv) (hname : (getConvection name :
      Option (Scratch 3 ι X → SArr 3 ι → SArr 3 ι → Space ι X → (Fin 3 → ι → ℝ) → SArr 3 ι)) = some conv)
    (hL : name = "Standard" ∨ name = "Divergence" → Leibniz T.backward K (Vanishes mask)) (s : Scratch 3 ι X) (rhs u : SArr 3 ι)
    (hu : Solenoidal K u) (hm : ∀ i, Vanishes mask (u i)) : power w u (conv s rhs u T K) = 0 := by
  have hd := power_divergenceForm hadj K u u
  have ha := power_advection hadj K u u
  have hf := C06_convection_forms (ι := ι) (X := X) name
  rw [hname] at hf
  have hneg : ∀ r : SArr 3 ι, power w u (fun i k => -r i k) = -power w u r := fun r => by
    simp only [power_inner, inner_neg_right, Finset.sum_neg_distrib]
  have hz : (name = "Standard" ∨ name = "Divergence") → ∑ i, adv T.backward K u (u i) (u i) = 0 := fun h =>
    Finset.sum_eq_zero fun i _ => adv_self H (hL h) hu hm (hm i)
  unfold getConvection at hname
  by_cases h1 : name = "Standard"
  · rw [if_pos h1] at hname
    obtain rfl := Option.some.inj hname
    rw [show convStandard s rhs u T K = fun i k => -advection T.forward T.backward K u i k from
      funext fun i => funext fun k => convStandard_eq s rhs u T K i k, hneg, ha, hz (Or.inl h1)]
    simp
  rw [if_neg h1] at hname
  by_cases h2 : name = "Divergence"
  · rw [if_pos h2] at hname
    obtain rfl := Option.some.inj hname
    rw [show convDivergence s rhs u T K = fun i k => -divergenceForm T.forward T.backward K u i k from
      funext fun i => funext fun k => convDivergence_eq s rhs u T K i k, hneg, hd, hz (Or.inr h2)]
    simp
  rw [if_neg h2] at hname
  by_cases h3 : name = "Skewed"
  · rw [if_pos h3] at hname
    obtain rfl := Option.some.inj hname
    have e : (fun i k => convSkewed s rhs u T K i k + convSkewed s rhs u T K i k) =
        fun i k => -(advection T.forward T.backward K u i k + divergenceForm T.forward T.backward K u i k) :=
      funext fun i => funext fun k => by rw [convSkewed_eq]; ring
    have h := power_add w u (convSkewed s rhs u T K) (convSkewed s rhs u T K)
    rw [e, hneg, power_add, ha, hd] at h
    linarith
  rw [if_neg h3] at hname
  by_cases h4 : name = "Vortex"
  · rw [if_pos h4] at hname
    obtain rfl := Option.some.inj hname
    rw [convVortex_eq]
    exact (power_lamb hadj K u).1
  · rw [if_neg h4] at hname
    exact absurd hname (by simp)

/-- C81.  Kinetic energy for every selectable form of convection: along solutions of the semi-discrete equations only viscosity and the
source change it.  Skewed and Vortex need no dealiasing; Standard and Divergence need the product rule. -/
theorem C81_energy (c : Ctx 3 ι X) (H : Additive c.Tp) (s : Scratch 3 ι X) (w : ι → ℝ) (a : ℝ) (hadj : Adjoint w a c.Tp.forward c.Tp.backward)
    (name : String) (conv) (hname : (getConvection name :
      Option (Scratch 3 ι X → SArr 3 ι → SArr 3 ι → Space ι X → (Fin 3 → ι → ℝ) → SArr 3 ι)) = some conv)
    (hL : name = "Standard" ∨ name = "Divergence" → Leibniz c.Tp.backward c.K (Vanishes c.mask)) (rhs : SArr 3 ι) (U : ℝ → SArr 3 ι) (t : ℝ)
    (hU : ∀ i k, HasDerivAt (fun s => U s i k) (rhsNS c (fun r u => conv s r u c.Tp c.K) rhs (U t) i k) t)
    (hu : Solenoidal c.K (U t)) (hm : ∀ i, Vanishes c.mask (U t i)) :
    HasDerivAt (fun s => energy w (U s)) (-c.nu * dissipation w c.K (U t) + power w (U t) c.Source) t := by
  rw [← power_rhs c w (fun r u => conv s r u c.Tp c.K) rhs (U t) hu (Vanishes.mask hm)
    (power_conv c.Tp H c.K w a hadj c.mask name conv hname hL s rhs (U t) hu hm)]
  exact energy_hasDeriv w U _ t hU

/-! ## Helicity -/

theorem curl_hasDeriv (K : Fin 3 → ι → ℝ) (U : ℝ → SArr 3 ι) (r : SArr 3 ι) (t : ℝ) (h : ∀ i k, HasDerivAt (fun s => U s i k) (r i k) t)
    (i : Fin 3) (k : ι) : HasDerivAt (fun s => curl K (U s) i k) (curl K r i k) t :=
  (((h (i + 2) k).const_mul _).sub ((h (i + 1) k).const_mul _)).const_mul _

/-- C81.  Helicity (Vortex form, any adjoint pair of transforms, no dealiasing needed): only viscosity and the source change it. -/
theorem C81_helicity (c : Ctx 3 ι X) (s : Scratch 3 ι X) (w : ι → ℝ) (a : ℝ) (hadj : Adjoint w a c.Tp.forward c.Tp.backward)
    (rhs : SArr 3 ι) (U : ℝ → SArr 3 ι) (t : ℝ)
    (hU : ∀ i k, HasDerivAt (fun s => U s i k) (rhsNS c (fun r u => convVortex s r u c.Tp c.K) rhs (U t) i k) t)
    (hm : ∀ i, Vanishes c.mask (U t i)) :
    HasDerivAt (fun s => helicity w c.K (U s))
      (-2 * c.nu * dissipation2 w c.K (curl c.K (U t)) (U t) + 2 * power w (curl c.K (U t)) c.Source) t := by
  refine (power_deriv_sum w U (fun s => curl c.K (U s)) _ _ t hU (curl_hasDeriv c.K U _ t hU)).congr_deriv ?_
  rw [power_curl, power_rhs_test c w _ rhs (U t) _ (fun k => dot_curl c.K (U t) k) (Vanishes.curl hm c.K), convVortex_eq,
    (power_lamb hadj c.K (U t)).2]
  ring

/-! ## Enstrophy in two dimensions -/

/-- C81.  Enstrophy of NS2D, with the product rule. -/
theorem C81_enstrophy (c : Ctx 2 ι X) (H : Additive c.Tp) (w0 : ι → ℂ) (w : ι → ℝ) (a : ℝ) (hadj : Adjoint w a c.Tp.forward c.Tp.backward)
    (hL : Leibniz c.Tp.backward c.K (Vanishes c.mask)) (rhs : SArr 2 ι) (U : ℝ → SArr 2 ι) (t : ℝ)
    (hU : ∀ i k, HasDerivAt (fun s => U s i k) (rhsNS c (fun r u => conv2DVortex w0 r u c.Tp c.K) rhs (U t) i k) t)
    (hu : Solenoidal c.K (U t)) (hm : ∀ i, Vanishes c.mask (U t i)) :
    HasDerivAt (fun s => variance w (vorticity c.K (U s)))
      (-c.nu * gradSq w c.K (vorticity c.K (U t)) + Spec.inner w (vorticity c.K (U t)) (vorticity c.K c.Source)) t := by
  set om := vorticity c.K (U t) with hom
  have hvan : Vanishes c.mask om := fun k hk => by simp [hom, vorticity, hm _ k hk]
  have hder : ∀ k, HasDerivAt (fun s => vorticity c.K (U s) k)
      (vorticity c.K (rhsNS c (fun r u => conv2DVortex w0 r u c.Tp c.K) rhs (U t)) k) t := fun k =>
    (((hU 1 k).const_mul _).sub ((hU 0 k).const_mul _)).const_mul _
  let v : SArr 2 ι := ![Spec.deriv c.K 1 om, fun k => -Spec.deriv c.K 0 om k]
  have hv : ∀ r : SArr 2 ι, Spec.inner w om (vorticity c.K r) = power w v r := fun r => by
    simp only [Spec.inner, power, Fin.sum_univ_two, ← Finset.sum_add_distrib, ← mul_add, ← add_re]
    refine Finset.sum_congr rfl fun k _ => ?_
    simp only [v, Matrix.cons_val_zero, Matrix.cons_val_one, Spec.deriv, vorticity, map_neg, map_mul, conj_I, conj_ofReal]
    congr 2
    ring
  have hsol : Solenoidal c.K v := fun k => by
    simp only [dot, at', Fin.sum_univ_two, v, Matrix.cons_val_zero, Matrix.cons_val_one, Spec.deriv]
    ring
  have hvm : ∀ i, Vanishes c.mask (v i) := fun i k hk => by
    fin_cases i <;> simp [v, Spec.deriv, hvan k hk]
  have hconv : power w v (conv2DVortex w0 rhs (U t) c.Tp c.K) = 0 := by
    rw [conv2D_lamb2, power_inner, Fin.sum_univ_two]
    simp only [lamb2, Matrix.cons_val_zero, Matrix.cons_val_one, inner_forward hadj]
    rw [show (c.Tp.backward fun k => I * (c.K 0 k * U t 1 k - c.K 1 k * U t 0 k)) = c.Tp.backward om from rfl]
    simp only [v, Matrix.cons_val_zero, Matrix.cons_val_one, H.backward_neg]
    have h := adv_self H hL hu hm hvan
    rw [← mul_add, ← Finset.sum_add_distrib, ← mul_zero a, ← h, adv]
    congr 1
    refine Finset.sum_congr rfl fun x _ => ?_
    rw [Fin.sum_univ_two]
    ring
  have hdis : dissipation2 w c.K v (U t) = gradSq w c.K om := by
    simp only [dissipation2, gradSq, Spec.inner, Fin.sum_univ_two, ← Finset.sum_add_distrib]
    refine Finset.sum_congr rfl fun k _ => ?_
    simp only [← mul_add, ← add_re]
    rw [mul_assoc, ← re_ofReal_mul]
    congr 2
    simp only [v, Matrix.cons_val_zero, Matrix.cons_val_one, Spec.deriv, hom, vorticity, map_neg, map_mul, map_sub, conj_I, conj_ofReal,
      Spec.normSq, at', Fin.sum_univ_two]
    push_cast
    ring_nf
    simp only [show I ^ 4 = 1 by rw [show 4 = 2 * 2 from rfl, pow_mul, I_sq]; norm_num, I_sq]
    ring
  refine ((inner_hasDeriv w (fun s => vorticity c.K (U s)) (fun s => vorticity c.K (U s)) _ _ t hder hder).const_mul (1 / 2)).congr_deriv ?_
  rw [inner_symm w (vorticity c.K (rhsNS c (fun r u => conv2DVortex w0 r u c.Tp c.K) rhs (U t))), ← hom, hv,
    power_rhs_test c w _ rhs (U t) v hsol hvm, hconv, hdis, hv]
  ring

/-! ## Magnetohydrodynamics -/

omit [Fintype X] in
/-- Power of the right-hand sides of the MHD solver on test fields. -/
theorem power_rhsMHD (c : Ctx 3 ι X) (eta : ℝ) (w : ι → ℝ) (conv : SArr 3 ι × SArr 3 ι → SArr 3 ι × SArr 3 ι → SArr 3 ι × SArr 3 ι)
    (rhs ub : SArr 3 ι × SArr 3 ι) (v : SArr 3 ι) (hm : ∀ i, Vanishes c.mask (v i)) :
    (Solenoidal c.K v → power w v (rhsMHD c eta conv rhs ub).1 = power w v (conv rhs ub).1 - c.nu * dissipation2 w c.K v ub.1) ∧
      power w v (rhsMHD c eta conv rhs ub).2 = power w v (conv rhs ub).2 - eta * dissipation2 w c.K v ub.2 := by
  constructor
  · intro hv
    have h : (rhsMHD c eta conv rhs ub).1 = fun i k => ((maskNyquist c.mask (conv rhs ub).1) i k -
      (∑ j, maskNyquist c.mask (conv rhs ub).1 j k * (K_over_K2 c.K j k : ℂ)) * c.K i k) - (c.nu * K2 c.K k : ℝ) * ub.1 i k := rfl
    rw [h, power_sub w v (fun i k => maskNyquist c.mask (conv rhs ub).1 i k -
      (∑ j, maskNyquist c.mask (conv rhs ub).1 j k * (K_over_K2 c.K j k : ℂ)) * c.K i k),
      power_sub w v (maskNyquist c.mask (conv rhs ub).1), power_mask w c.mask v _ (Vanishes.mask hm), power_diffusion2,
      power_pressure w c.K v _ hv]
    ring
  · have h : (rhsMHD c eta conv rhs ub).2 = fun i k => (maskNyquist c.mask (conv rhs ub).2) i k - (eta * K2 c.K k : ℝ) * ub.2 i k := rfl
    rw [h, power_sub w v (maskNyquist c.mask (conv rhs ub).2), power_mask w c.mask v _ (Vanishes.mask hm), power_diffusion2]

omit [Fintype ι] [Fintype X] in
/-- C81.  Solutions of the MHD equations keep both fields divergence free and zero on masked modes, and the mean of the magnetic field. -/
theorem C81_mhd_solutions_admissible (c : Ctx 3 ι X) (eta : ℝ) (rhs : SArr 3 ι × SArr 3 ι) (V : ℝ → SArr 3 ι × SArr 3 ι)
    (hu : ∀ t i k, HasDerivAt (fun s => (V s).1 i k) ((rhsMHD c eta (fun _ ub => convMHD ub c.Tp c.K) rhs (V t)).1 i k) t)
    (hb : ∀ t i k, HasDerivAt (fun s => (V s).2 i k) ((rhsMHD c eta (fun _ ub => convMHD ub c.Tp c.K) rhs (V t)).2 i k) t)
    (h1 : Solenoidal c.K (V 0).1) (h2 : Solenoidal c.K (V 0).2) (hm1 : ∀ i, Vanishes c.mask ((V 0).1 i)) (hm2 : ∀ i, Vanishes c.mask ((V 0).2 i))
    (t : ℝ) : (Solenoidal c.K (V t).1 ∧ Solenoidal c.K (V t).2 ∧ (∀ i, Vanishes c.mask ((V t).1 i)) ∧ ∀ i, Vanishes c.mask ((V t).2 i)) ∧
      ∀ k, (∀ i, c.K i k = 0) → ∀ i, (V t).2 i k = (V 0).2 i k := by
  refine ⟨⟨fun k => ?_, fun k => ?_, fun i k hk => ?_, fun i k hk => ?_⟩, fun k hk i => ?_⟩
  · refine heat_zero (c.nu * normSq (at' c.K k)) (fun s => dot (at' c.K k) (at' (V s).1 k)) (fun t => ?_) (h1 k) t
    exact (dot_hasDeriv c.K (fun s => (V s).1) _ t k fun i => hu t i k).congr_deriv (C11_velocity_rhs_divergence c eta _ rhs (V t) k)
  · refine heat_zero (eta * normSq (at' c.K k)) (fun s => dot (at' c.K k) (at' (V s).2 k)) (fun t => ?_) (h2 k) t
    exact (dot_hasDeriv c.K (fun s => (V s).2) _ t k fun i => hb t i k).congr_deriv
      (C11_magnetic_rhs_divergence c eta (fun ub i j => c.Tp.forward fun x =>
        (c.Tp.backward (ub.1 i) x + c.Tp.backward (ub.2 i) x) * (c.Tp.backward (ub.1 j) x - c.Tp.backward (ub.2 j) x)) rhs (V t) k)
  · refine heat_zero (c.nu * K2 c.K k) (fun s => (V s).1 i k) (fun t => ?_) (hm1 i k hk) t
    refine (hu t i k).congr_deriv ?_
    simp [rhsMHD, add_pressure_diffusionMHD, maskNyquist_keeps, hk]
  · refine heat_zero (eta * K2 c.K k) (fun s => (V s).2 i k) (fun t => ?_) (hm2 i k hk) t
    refine (hb t i k).congr_deriv ?_
    simp [rhsMHD, add_pressure_diffusionMHD, maskNyquist_keeps, hk]
  · have hz : ∀ t, HasDerivAt (fun s => (V s).2 i k) 0 t := fun t => by
      refine (hb t i k).congr_deriv ?_
      have h2 : K2 c.K k = 0 := (K2_eq_zero _ _).2 hk
      simp [rhsMHD, add_pressure_diffusionMHD, maskNyquist_keeps, convMHD, divergenceConvection, set_Elsasser, hk, h2]
    exact is_const_of_deriv_eq_zero (fun t => (hz t).differentiableAt) (fun t => (hz t).deriv) t 0

section
variable (c : Ctx 3 ι X) (H : Additive c.Tp) (eta : ℝ) (w : ι → ℝ) (a : ℝ) (hadj : Adjoint w a c.Tp.forward c.Tp.backward)
  (hL : Leibniz c.Tp.backward c.K (Vanishes c.mask)) (rhs : SArr 3 ι × SArr 3 ι) (V : ℝ → SArr 3 ι × SArr 3 ι) (t : ℝ)
  (hu : ∀ i k, HasDerivAt (fun s => (V s).1 i k) ((rhsMHD c eta (fun _ ub => convMHD ub c.Tp c.K) rhs (V t)).1 i k) t)
  (hb : ∀ i k, HasDerivAt (fun s => (V s).2 i k) ((rhsMHD c eta (fun _ ub => convMHD ub c.Tp c.K) rhs (V t)).2 i k) t)
  (h1 : Solenoidal c.K (V t).1) (h2 : Solenoidal c.K (V t).2) (hm1 : ∀ i, Vanishes c.mask ((V t).1 i)) (hm2 : ∀ i, Vanishes c.mask ((V t).2 i))

include H hadj hL hu hb h1 h2 hm1 hm2

/-- C81.  Total energy of the MHD solver, with the product rule. -/
theorem C81_mhd_energy : HasDerivAt (fun s => energy w (V s).1 + energy w (V s).2)
    (-c.nu * dissipation w c.K (V t).1 - eta * dissipation w c.K (V t).2) t := by
  refine ((energy_hasDeriv w (fun s => (V s).1) _ t hu).add (energy_hasDeriv w (fun s => (V s).2) _ t hb)).congr_deriv ?_
  rw [(power_rhsMHD c eta w _ rhs (V t) (V t).1 hm1).1 h1, (power_rhsMHD c eta w _ rhs (V t) (V t).2 hm2).2, convMHD_eq c.Tp H]
  have hneg : power w (V t).1 (fun i k => -stressDiv c.Tp.forward c.Tp.backward c.K (V t).1 (V t).2 i k) =
      -power w (V t).1 (stressDiv c.Tp.forward c.Tp.backward c.K (V t).1 (V t).2) := by
    simp only [power_inner, inner_neg_right, Finset.sum_neg_distrib]
  simp only [hneg, power_stressDiv hadj, power_induction hadj, dissipation2_self, Finset.sum_sub_distrib]
  rw [Finset.sum_eq_zero fun i _ => adv_self H hL h1 hm1 (hm1 i), Finset.sum_eq_zero fun i _ => adv_self H hL h1 hm1 (hm2 i),
    Finset.sum_congr rfl fun i _ => adv_antisymm H hL h2 hm2 (hm2 i) (hm1 i), Finset.sum_neg_distrib]
  ring

/-- C81.  Cross helicity of the MHD solver, with the product rule. -/
theorem C81_cross_helicity : HasDerivAt (fun s => crossHelicity w (V s).1 (V s).2)
    (-(c.nu + eta) * dissipation2 w c.K (V t).1 (V t).2) t := by
  refine (power_deriv_sum w (fun s => (V s).1) (fun s => (V s).2) _ _ t hu hb).congr_deriv ?_
  rw [(power_rhsMHD c eta w _ rhs (V t) (V t).2 hm2).1 h2, (power_rhsMHD c eta w _ rhs (V t) (V t).1 hm1).2, convMHD_eq c.Tp H]
  have hneg : power w (V t).2 (fun i k => -stressDiv c.Tp.forward c.Tp.backward c.K (V t).1 (V t).2 i k) =
      -power w (V t).2 (stressDiv c.Tp.forward c.Tp.backward c.K (V t).1 (V t).2) := by
    simp only [power_inner, inner_neg_right, Finset.sum_neg_distrib]
  have hsymm : dissipation2 w c.K (V t).2 (V t).1 = dissipation2 w c.K (V t).1 (V t).2 :=
    Finset.sum_congr rfl fun i _ => Finset.sum_congr rfl fun k _ => by simp only [mul_re, conj_re, conj_im]; ring
  simp only [hneg, power_stressDiv hadj, power_induction hadj, Finset.sum_sub_distrib]
  rw [Finset.sum_eq_zero fun i _ => adv_self H hL h2 hm2 (hm2 i), Finset.sum_eq_zero fun i _ => adv_self H hL h2 hm2 (hm1 i),
    Finset.sum_congr rfl fun i _ => adv_antisymm H hL h1 hm1 (hm2 i) (hm1 i), Finset.sum_neg_distrib, hsymm]
  ring

end

omit [Fintype ι] [Fintype X] in
theorem potential_eq (s b : SArr 3 ι) (K : Fin 3 → ι → ℝ) : potential K b = velocityHat s b (K_over_K2 K) := by
  funext i k
  by_cases h : K2 K k = 0
  · rw [velocityHat_zero s b K k ((K2_eq_zero K k).1 h), potential, ← K2_eq, h]
    simp
  · have h' : (K2 K k : ℂ) ≠ 0 := by exact_mod_cast h
    rw [potential, ← velocityHat_mul s b K i k, ← K2_eq, mul_div_cancel_left₀ _ h']

omit [Fintype ι] [Fintype X] in
theorem induction_eq_curl (T : Space ι X) (H : Additive T) (K : Fin 3 → ι → ℝ) (u b : SArr 3 ι) :
    induction T.forward T.backward K u b = curl K fun l => T.forward fun x => cross (fun j => T.backward (u j) x) (fun j => T.backward (b j) x) l := by
  obtain ⟨h1, h2, h3, h4, h5, h6⟩ := fin3_add
  have hz : ∀ i, (fun x => T.backward (b i) x * T.backward (u i) x - T.backward (u i) x * T.backward (b i) x) = fun _ => 0 := fun i =>
    funext fun x => by ring
  have hn : ∀ i j, T.forward (fun x => T.backward (b j) x * T.backward (u i) x - T.backward (u j) x * T.backward (b i) x) =
      fun k => -T.forward (fun x => T.backward (u j) x * T.backward (b i) x - T.backward (u i) x * T.backward (b j) x) k := fun i j => by
    rw [← H.forward_neg]
    congr 1
    funext x
    ring
  have hp : ∀ i j, (fun x => T.backward (b j) x * T.backward (u i) x - T.backward (u j) x * T.backward (b i) x) =
      fun x => T.backward (u i) x * T.backward (b j) x - T.backward (u j) x * T.backward (b i) x := fun i j => funext fun x => by ring
  funext i k
  fin_cases i
  · simp only [induction, curl, cross, Fin.sum_univ_three, Fin.zero_eta, Fin.mk_one, Fin.reduceFinMk, h1, h2, h3, h4, h5, h6, hz, H.forward_zero]
    rw [hn 0 2, hp 0 1]
    ring
  · simp only [induction, curl, cross, Fin.sum_univ_three, Fin.zero_eta, Fin.mk_one, Fin.reduceFinMk, h1, h2, h3, h4, h5, h6, hz, H.forward_zero]
    rw [hn 1 0, hp 1 2]
    ring
  · simp only [induction, curl, cross, Fin.sum_univ_three, Fin.zero_eta, Fin.mk_one, Fin.reduceFinMk, h1, h2, h3, h4, h5, h6, hz, H.forward_zero]
    rw [hn 2 1, hp 2 0]
    ring

/-- C81.  Magnetic helicity of the MHD solver, for every additive adjoint pair of transforms and a magnetic field without mean: only
resistivity changes it, at the rate given by the current helicity. -/
theorem C81_magnetic_helicity (c : Ctx 3 ι X) (H : Additive c.Tp) (eta : ℝ) (w : ι → ℝ) (a : ℝ) (hadj : Adjoint w a c.Tp.forward c.Tp.backward)
    (rhs : SArr 3 ι × SArr 3 ι) (V : ℝ → SArr 3 ι × SArr 3 ι) (t : ℝ)
    (hb : ∀ i k, HasDerivAt (fun s => (V s).2 i k) ((rhsMHD c eta (fun _ ub => convMHD ub c.Tp c.K) rhs (V t)).2 i k) t)
    (h2 : Solenoidal c.K (V t).2) (hz : ZeroMean c.K (V t).2) (hm2 : ∀ i, Vanishes c.mask ((V t).2 i)) :
    HasDerivAt (fun s => magneticHelicity w c.K (V s).2) (-2 * eta * helicity w c.K (V t).2) t := by
  have hpot : ∀ i k, HasDerivAt (fun s => potential c.K (V s).2 i k)
      (potential c.K (rhsMHD c eta (fun _ ub => convMHD ub c.Tp c.K) rhs (V t)).2 i k) t := fun i k =>
    (curl_hasDeriv c.K (fun s => (V s).2) _ t hb i k).div_const _
  have hsym : ∀ u v : SArr 3 ι, power w u (potential c.K v) = power w (potential c.K u) v := fun u v => by
    have hdiv : ∀ v : SArr 3 ι, potential c.K v = curl c.K fun i k => v i k / (normSq (at' c.K k) : ℂ) := fun v => by
      funext i k
      simp only [potential, curl, cross]
      ring
    have hw : power w u (potential c.K v) = power (fun k => w k * (normSq (at' c.K k))⁻¹) u (curl c.K v) := by
      refine Finset.sum_congr rfl fun i _ => Finset.sum_congr rfl fun k _ => ?_
      rw [potential, div_eq_mul_inv, ← ofReal_inv, ← mul_assoc, mul_comm _ ((_ : ℝ) : ℂ), re_ofReal_mul]
      ring
    have hw2 : power w (potential c.K u) v = power (fun k => w k * (normSq (at' c.K k))⁻¹) (curl c.K u) v := by
      refine Finset.sum_congr rfl fun i _ => Finset.sum_congr rfl fun k _ => ?_
      rw [potential, div_eq_mul_inv, ← ofReal_inv, map_mul, conj_ofReal, mul_comm ((starRingEnd ℂ) (curl c.K u i k)), mul_assoc, re_ofReal_mul]
      ring
    rw [hw, hw2, power_curl]
  have hcurl : curl c.K (potential c.K (V t).2) = (V t).2 := by
    rw [potential_eq 0]; exact C08_curl_velocity 0 _ _ h2 hz
  have hdis : dissipation2 w c.K (potential c.K (V t).2) (V t).2 = helicity w c.K (V t).2 := by
    rw [helicity, ← power_inner, power_curl]
    refine Finset.sum_congr rfl fun i _ => Finset.sum_congr rfl fun k _ => ?_
    rw [mul_assoc, ← re_ofReal_mul]
    congr 2
    rw [potential, map_div₀, conj_ofReal, ← mul_assoc]
    by_cases h : normSq (at' c.K k) = 0
    · have hk := (K2_eq_zero c.K k).1 (by rw [K2_eq]; exact h)
      simp [h, curl, cross, hk]
    · have h' : (normSq (at' c.K k) : ℂ) ≠ 0 := by exact_mod_cast h
      rw [mul_div_cancel₀ _ h']
  have hind : power w (potential c.K (V t).2) (induction c.Tp.forward c.Tp.backward c.K (V t).1 (V t).2) = 0 := by
    rw [induction_eq_curl c.Tp H, power_curl, hcurl]
    refine (Finset.sum_congr rfl fun i _ => inner_forward hadj ((V t).2 i) _).trans ?_
    rw [← Finset.mul_sum, Finset.sum_comm, Finset.sum_eq_zero fun x _ => ?_, mul_zero]
    obtain ⟨h1, h2, h3, h4, h5, h6⟩ := fin3_add
    simp only [Fin.sum_univ_three, cross, h1, h2, h3, h4, h5, h6]
    ring
  have hvan : ∀ i, Vanishes c.mask (potential c.K (V t).2 i) := fun i k hk => by
    rw [potential, Vanishes.curl hm2 c.K i k hk, zero_div]
  refine (power_deriv_sum w (fun s => potential c.K (V s).2) (fun s => (V s).2) _ _ t hpot hb).congr_deriv ?_
  rw [hsym, (power_rhsMHD c eta w _ rhs (V t) _ hvan).2, convMHD_eq c.Tp H, hind, hdis]
  ring

/-! ## Boussinesq -/

/-- C81.  Bq2D: convection exchanges no energy (any adjoint pair), buoyancy works at the rate `-Ri <v rho>`; and with the product rule the
variance of the density only diffuses. -/
theorem C81_boussinesq (c : Ctx 2 ι X) (H : Additive c.Tp) (Ri Pr : ℝ) (w0 : SArr 2 ι) (w : ι → ℝ) (a : ℝ)
    (hadj : Adjoint w a c.Tp.forward c.Tp.backward) (rhs : SArr 2 ι × (ι → ℂ)) (V : ℝ → SArr 2 ι × (ι → ℂ)) (t : ℝ)
    (hU : ∀ i k, HasDerivAt (fun s => (V s).1 i k) ((rhsBq c Ri Pr (fun r ur => convBq w0 r ur c.Tp c.K) rhs (V t)).1 i k) t)
    (hR : ∀ k, HasDerivAt (fun s => (V s).2 k) ((rhsBq c Ri Pr (fun r ur => convBq w0 r ur c.Tp c.K) rhs (V t)).2 k) t)
    (hu : Solenoidal c.K (V t).1) (hm : ∀ i, Vanishes c.mask ((V t).1 i)) (hmr : Vanishes c.mask (V t).2) :
    HasDerivAt (fun s => energy w (V s).1) (-c.nu * dissipation w c.K (V t).1 - Ri * Spec.inner w ((V t).1 1) (V t).2) t ∧
    (Leibniz c.Tp.backward c.K (Vanishes c.mask) →
      HasDerivAt (fun s => variance w (V s).2) (-(c.nu / Pr) * gradSq w c.K (V t).2) t) := by
  constructor
  · refine (energy_hasDeriv w (fun s => (V s).1) _ t hU).congr_deriv ?_
    have hmk := maskNyquist_keeps c.mask (lamb2 c.Tp.forward c.Tp.backward c.K (V t).1)
    set G := lamb2 c.Tp.forward c.Tp.backward c.K (V t).1 with hG
    let P : ι → ℂ := fun k => ∑ j, (maskNyquist c.mask G j k - (if j = 1 then Ri * (V t).2 k else 0)) * (K_over_K2 c.K j k : ℂ)
    have h : (rhsBq c Ri Pr (fun r ur => convBq w0 r ur c.Tp c.K) rhs (V t)).1 = fun i k =>
        ((maskNyquist c.mask G i k - (if i = 1 then Ri * (V t).2 k else 0)) - P k * c.K i k) - (c.nu * K2 c.K k : ℝ) * (V t).1 i k := by
      funext i k
      rw [(C13_rhs c Ri Pr w0 rhs (V t) k).1 i, leray_eq, K2_eq]
      simp only [P, hmk]
      rfl
    rw [h, power_sub w _ (fun i k => (maskNyquist c.mask G i k - (if i = 1 then Ri * (V t).2 k else 0)) - P k * c.K i k),
      power_sub w _ (fun i k => (maskNyquist c.mask G i k - (if i = 1 then Ri * (V t).2 k else 0))),
      power_sub w _ (maskNyquist c.mask G), power_mask w c.mask _ _ (Vanishes.mask hm), power_diffusion, power_pressure w c.K _ _ hu]
    have h0 : power w (V t).1 G = 0 := by
      rw [power_inner, Fin.sum_univ_two]
      simp only [hG, lamb2, Matrix.cons_val_zero, Matrix.cons_val_one, inner_forward hadj]
      rw [← mul_add, ← Finset.sum_add_distrib, Finset.sum_eq_zero fun x _ => ?_, mul_zero]
      ring
    have h1 : power w (V t).1 (fun i k => if i = 1 then (Ri : ℂ) * (V t).2 k else 0) = Ri * Spec.inner w ((V t).1 1) (V t).2 := by
      rw [power_inner, Fin.sum_univ_two]
      simp only [Spec.inner, if_true, if_neg (by decide : ¬ (0 : Fin 2) = 1), mul_zero, zero_re, Finset.sum_const_zero, zero_add, Finset.mul_sum]
      refine Finset.sum_congr rfl fun k _ => ?_
      rw [mul_left_comm ((starRingEnd ℂ) ((V t).1 1 k)), re_ofReal_mul]
      ring
    rw [h0, h1]
    ring
  · intro hL
    have hflux : Spec.inner w (V t).2 (fun k => if keeps c.mask k then fluxDiv c.Tp.forward c.Tp.backward c.K (V t).1 (V t).2 k else 0) =
        Spec.inner w (V t).2 (fluxDiv c.Tp.forward c.Tp.backward c.K (V t).1 (V t).2) := by
      refine Finset.sum_congr rfl fun k _ => ?_
      rcases hk : keeps c.mask k with _ | _
      · simp [hmr k hk]
      · simp [hk]
    have hdiff : Spec.inner w (V t).2 (fun k => (c.nu / Pr * normSq (at' c.K k) : ℝ) * (V t).2 k) = c.nu / Pr * gradSq w c.K (V t).2 := by
      simp only [Spec.inner, gradSq, Fin.sum_univ_two, ← Finset.sum_add_distrib, Finset.mul_sum]
      refine Finset.sum_congr rfl fun k _ => ?_
      simp only [Spec.deriv, map_mul, conj_I, conj_ofReal, Spec.normSq, at', Fin.sum_univ_two]
      simp only [mul_re, mul_im, conj_re, conj_im, I_re, I_im, ofReal_re, ofReal_im, neg_re, neg_im]
      ring
    refine ((inner_hasDeriv w (fun s => (V s).2) (fun s => (V s).2) _ _ t hR hR).const_mul (1 / 2)).congr_deriv ?_
    rw [inner_symm w (rhsBq c Ri Pr (fun r ur => convBq w0 r ur c.Tp c.K) rhs (V t)).2,
      show (rhsBq c Ri Pr (fun r ur => convBq w0 r ur c.Tp c.K) rhs (V t)).2 = _ from
        funext fun k => (C13_rhs c Ri Pr w0 rhs (V t) k).2,
      inner_sub_right w (V t).2 (fun k => -(if keeps c.mask k then fluxDiv c.Tp.forward c.Tp.backward c.K (V t).1 (V t).2 k else 0)),
      inner_neg_right, hflux, inner_fluxDiv hadj, adv_self H hL hu hm hmr, hdiff]
    ring

end SpectralDNS.Periodic

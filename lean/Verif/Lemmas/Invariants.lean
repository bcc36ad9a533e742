import Verif.Lemmas.Leibniz
import Verif.Props.Bq
import Verif.Props.VV

/-!
# Work done by the nonlinear terms on test fields
-/

namespace SpectralDNS.Periodic

open Complex Spec

variable {ι X : Type*} {d : ℕ} [Fintype ι]

/-! ## The mean product of two fields -/

theorem power_inner (w : ι → ℝ) (u r : SArr d ι) : power w u r = ∑ i, Spec.inner w (u i) (r i) := rfl

theorem inner_symm (w : ι → ℝ) (a b : ι → ℂ) : Spec.inner w a b = Spec.inner w b a :=
  Finset.sum_congr rfl fun k _ => by simp only [mul_re, conj_re, conj_im]; ring

theorem inner_sum_right {J : Type*} (s : Finset J) (w : ι → ℝ) (a : ι → ℂ) (b : J → ι → ℂ) :
    Spec.inner w a (fun k => ∑ j ∈ s, b j k) = ∑ j ∈ s, Spec.inner w a (b j) := by
  simp only [Spec.inner, Finset.mul_sum, re_sum]
  exact Finset.sum_comm

theorem inner_neg_right (w : ι → ℝ) (a b : ι → ℂ) : Spec.inner w a (fun k => -b k) = -Spec.inner w a b := by
  simp only [Spec.inner, mul_neg, neg_re, Finset.sum_neg_distrib]

theorem inner_sub_right (w : ι → ℝ) (a b c : ι → ℂ) : Spec.inner w a (fun k => b k - c k) = Spec.inner w a b - Spec.inner w a c := by
  simp only [Spec.inner, mul_sub, sub_re, Finset.sum_sub_distrib]

theorem inner_add_right (w : ι → ℝ) (a b c : ι → ℂ) : Spec.inner w a (fun k => b k + c k) = Spec.inner w a b + Spec.inner w a c := by
  simp only [Spec.inner, mul_add, add_re, Finset.sum_add_distrib]

/-- Integration by parts. -/
theorem inner_deriv (w : ι → ℝ) (K : Fin d → ι → ℝ) (j : Fin d) (a b : ι → ℂ) :
    Spec.inner w a (Spec.deriv K j b) = -Spec.inner w (Spec.deriv K j a) b := by
  simp only [Spec.inner, Spec.deriv, ← Finset.sum_neg_distrib]
  refine Finset.sum_congr rfl fun k _ => ?_
  simp only [map_mul, conj_I, conj_ofReal]
  rw [← mul_neg, ← neg_re]
  congr 2
  ring

theorem inner_hasDeriv (w : ι → ℝ) (A B : ℝ → ι → ℂ) (a b : ι → ℂ) (t : ℝ) (hA : ∀ k, HasDerivAt (fun s => A s k) (a k) t)
    (hB : ∀ k, HasDerivAt (fun s => B s k) (b k) t) :
    HasDerivAt (fun s => Spec.inner w (A s) (B s)) (Spec.inner w a (B t) + Spec.inner w (A t) b) t := by
  have hre : ∀ (f : ℝ → ℂ) (f' : ℂ), HasDerivAt f f' t → HasDerivAt (fun s => (f s).re) f'.re t := fun f f' h => by
    simpa [Function.comp_def] using (reCLM.hasFDerivAt (x := f t)).comp_hasDerivAt t (f := f) h
  have him : ∀ (f : ℝ → ℂ) (f' : ℂ), HasDerivAt f f' t → HasDerivAt (fun s => (f s).im) f'.im t := fun f f' h => by
    simpa [Function.comp_def] using (imCLM.hasFDerivAt (x := f t)).comp_hasDerivAt t (f := f) h
  have h : ∀ k, HasDerivAt (fun s => w k * ((starRingEnd ℂ) (A s k) * B s k).re)
      (w k * ((starRingEnd ℂ) (a k) * B t k).re + w k * ((starRingEnd ℂ) (A t k) * b k).re) t := fun k => by
    have h2 := (((hre _ _ (hA k)).mul (hre _ _ (hB k))).add ((him _ _ (hA k)).mul (him _ _ (hB k)))).const_mul (w k)
    have e : (fun s => w k * ((starRingEnd ℂ) (A s k) * B s k).re) = fun s => w k * (((fun s => (A s k).re) * (fun s => (B s k).re) +
        (fun s => (A s k).im) * fun s => (B s k).im) s) := by
      funext s; simp only [mul_re, conj_re, conj_im, Pi.add_apply, Pi.mul_apply]; ring
    rw [e]
    refine h2.congr_deriv ?_
    simp only [mul_re, conj_re, conj_im]
    ring
  refine (HasDerivAt.fun_sum fun k (_ : k ∈ Finset.univ) => h k).congr_deriv ?_
  rw [Finset.sum_add_distrib]; rfl

theorem power_deriv_sum (w : ι → ℝ) (A B : ℝ → SArr d ι) (a b : SArr d ι) (t : ℝ) (hA : ∀ i k, HasDerivAt (fun s => A s i k) (a i k) t)
    (hB : ∀ i k, HasDerivAt (fun s => B s i k) (b i k) t) :
    HasDerivAt (fun s => ∑ i, Spec.inner w (A s i) (B s i)) (power w (B t) a + power w (A t) b) t := by
  refine (HasDerivAt.fun_sum fun i (_ : i ∈ Finset.univ) => inner_hasDeriv w (fun s => A s i) (fun s => B s i) (a i) (b i) t (hA i) (hB i)).congr_deriv ?_
  rw [Finset.sum_add_distrib, power_inner, power_inner]
  simp only [inner_symm w (a _)]

/-- The curl is symmetric. -/
theorem power_curl (w : ι → ℝ) (K : Fin 3 → ι → ℝ) (u v : SArr 3 ι) : power w u (curl K v) = power w (curl K u) v := by
  obtain ⟨h1, h2, h3, h4, h5, h6⟩ := fin3_add
  simp only [power]
  rw [Finset.sum_comm, Finset.sum_comm (s := Finset.univ) (t := (Finset.univ : Finset ι))]
  refine Finset.sum_congr rfl fun k _ => ?_
  simp only [Fin.sum_univ_three, ← mul_add, ← add_re, curl, cross, h1, h2, h3, h4, h5, h6, map_mul, map_sub, conj_I, conj_ofReal]
  congr 2
  ring

theorem dissipation2_self (w : ι → ℝ) (K : Fin d → ι → ℝ) (u : SArr d ι) : dissipation2 w K u u = dissipation w K u := by
  simp only [dissipation2, dissipation]
  rw [Finset.sum_comm]
  refine Finset.sum_congr rfl fun k _ => ?_
  rw [Finset.mul_sum]
  refine Finset.sum_congr rfl fun i _ => ?_
  rw [mul_comm ((starRingEnd ℂ) (u i k)), mul_conj, ofReal_re]

theorem power_diffusion2 (w : ι → ℝ) (K : Fin d → ι → ℝ) (nu : ℝ) (v u : SArr d ι) :
    power w v (fun i k => (nu * K2 K k : ℝ) * u i k) = nu * dissipation2 w K v u := by
  simp only [power, dissipation2, Finset.mul_sum]
  refine Finset.sum_congr rfl fun i _ => Finset.sum_congr rfl fun k _ => ?_
  rw [mul_left_comm, re_ofReal_mul, K2_eq]
  ring

/-! ## Vanishing on the modes of the mask -/

/-- `a` vanishes where the mask is zero. -/
def Vanishes (mask : Option (ι → Bool)) (a : ι → ℂ) : Prop := ∀ k, keeps mask k = false → a k = 0

omit [Fintype ι] in
theorem Vanishes.mask {mask : Option (ι → Bool)} {u : SArr d ι} (h : ∀ i, Vanishes mask (u i)) :
    ∀ m, mask = some m → ∀ k, m k = false → ∀ i, u i k = 0 := fun m hm k hk i => h i k (by rw [hm]; exact hk)

omit [Fintype ι] in
theorem Vanishes.curl {mask : Option (ι → Bool)} {u : SArr 3 ι} (h : ∀ i, Vanishes mask (u i)) (K : Fin 3 → ι → ℝ) (i : Fin 3) :
    Vanishes mask (Spec.curl K u i) := fun k hk => by simp [Spec.curl, Spec.cross, h _ k hk]

omit [Fintype ι] in
theorem Vanishes.deriv {mask : Option (ι → Bool)} {a : ι → ℂ} (h : Vanishes mask a) (K : Fin d → ι → ℝ) (j : Fin d) :
    Vanishes mask (Spec.deriv K j a) := fun k hk => by rw [Spec.deriv, h k hk, mul_zero]

/-- Power of the right-hand side of the momentum equation on any divergence-free test field. -/
theorem power_rhs_test (c : Ctx d ι X) (w : ι → ℝ) (conv : SArr d ι → SArr d ι → SArr d ι) (rhs u v : SArr d ι)
    (hv : Solenoidal c.K v) (hm : ∀ i, Vanishes c.mask (v i)) :
    power w v (rhsNS c conv rhs u) = power w v (conv rhs u) - c.nu * dissipation2 w c.K v u + power w v c.Source := by
  have h : rhsNS c conv rhs u = fun i k => (((maskNyquist c.mask (conv rhs u)) i k -
      (∑ j, maskNyquist c.mask (conv rhs u) j k * (K_over_K2 c.K j k : ℂ)) * c.K i k) - (c.nu * K2 c.K k : ℝ) * u i k)
        + c.Source i k := rfl
  rw [h, power_add w v (fun i k => (maskNyquist c.mask (conv rhs u) i k -
      (∑ j, maskNyquist c.mask (conv rhs u) j k * (K_over_K2 c.K j k : ℂ)) * c.K i k) - (c.nu * K2 c.K k : ℝ) * u i k),
    power_sub w v (fun i k => maskNyquist c.mask (conv rhs u) i k -
      (∑ j, maskNyquist c.mask (conv rhs u) j k * (K_over_K2 c.K j k : ℂ)) * c.K i k),
    power_sub w v (maskNyquist c.mask (conv rhs u)), power_mask w c.mask v _ (Vanishes.mask hm), power_diffusion2,
    power_pressure w c.K v _ hv]
  ring

/-! ## Transport -/

variable [Fintype X]

/-- `sum over the grid of u . grad f times g`. -/
noncomputable def adv (B : (ι → ℂ) → X → ℝ) (K : Fin d → ι → ℝ) (u : SArr d ι) (f g : ι → ℂ) : ℝ :=
  ∑ x, ∑ j, B (u j) x * B (Spec.deriv K j f) x * B g x

omit [Fintype ι] in
/-- Transport by a divergence-free velocity is antisymmetric where the product rule holds. -/
theorem adv_antisymm {T : Space ι X} (H : Additive T) {K : Fin d → ι → ℝ} {Ok : (ι → ℂ) → Prop} (hL : Leibniz T.backward K Ok)
    {u : SArr d ι} (hu : Solenoidal K u) (hk : ∀ i, Ok (u i)) {f g : ι → ℂ} (hf : Ok f) (hg : Ok g) :
    adv T.backward K u f g = -adv T.backward K u g f := by
  have hsum : ∀ (s : Finset (Fin d)) (a : Fin d → ι → ℂ) x, T.backward (fun k => ∑ j ∈ s, a j k) x = ∑ j ∈ s, T.backward (a j) x := by
    classical
    intro s a x
    induction s using Finset.induction_on with
    | empty => simp [H.backward_zero]
    | insert j s hj ih => simp only [Finset.sum_insert hj]; rw [H.backward, ← ih]
  have hdiv : ∀ x, ∑ j, T.backward (Spec.deriv K j (u j)) x = 0 := fun x => by
    rw [← hsum]
    have e : (fun k => ∑ j, Spec.deriv K j (u j) k) = fun _ => 0 := by
      funext k
      have := hu k
      simp only [Spec.deriv, mul_assoc, ← Finset.mul_sum]
      simp only [dot, at'] at this
      rw [this, mul_zero]
    rw [e, H.backward_zero]
  have h := Finset.sum_eq_zero fun j (_ : j ∈ (Finset.univ : Finset (Fin d))) => hL j (u j) f g (hk j) hf hg
  rw [Finset.sum_comm] at h
  rw [adv, adv, eq_neg_iff_add_eq_zero, ← Finset.sum_add_distrib, ← h]
  refine Finset.sum_congr rfl fun x _ => ?_
  have e : ∀ j, T.backward (Spec.deriv K j (u j)) x * T.backward f x * T.backward g x + T.backward (u j) x * T.backward (Spec.deriv K j f) x * T.backward g x
      + T.backward (u j) x * T.backward f x * T.backward (Spec.deriv K j g) x =
      T.backward (Spec.deriv K j (u j)) x * (T.backward f x * T.backward g x) + (T.backward (u j) x * T.backward (Spec.deriv K j f) x * T.backward g x
      + T.backward (u j) x * T.backward (Spec.deriv K j g) x * T.backward f x) := fun j => by ring
  simp only [e, Finset.sum_add_distrib, ← Finset.sum_mul, hdiv, zero_mul, zero_add]

omit [Fintype ι] in
theorem adv_self {T : Space ι X} (H : Additive T) {K : Fin d → ι → ℝ} {Ok : (ι → ℂ) → Prop} (hL : Leibniz T.backward K Ok)
    {u : SArr d ι} (hu : Solenoidal K u) (hk : ∀ i, Ok (u i)) {f : ι → ℂ} (hf : Ok f) : adv T.backward K u f f = 0 := by
  have := adv_antisymm H hL hu hk hf hf
  linarith

section
variable {T : Space ι X} {w : ι → ℝ} {a : ℝ} (hadj : Adjoint w a T.forward T.backward) (K : Fin d → ι → ℝ)
include hadj

theorem inner_forward (b : ι → ℂ) (f : X → ℝ) : Spec.inner w b (T.forward f) = a * ∑ x, T.backward b x * f x := hadj b f

/-- Work of a divergence `i k_j F(f_j)`. -/
theorem inner_divergence (b : ι → ℂ) (f : Fin d → X → ℝ) :
    Spec.inner w b (fun k => ∑ j, I * K j k * T.forward (f j) k) = -(a * ∑ x, ∑ j, T.backward (Spec.deriv K j b) x * f j x) := by
  rw [inner_sum_right Finset.univ w b fun j k => I * K j k * T.forward (f j) k]
  refine (Finset.sum_congr rfl fun j _ => inner_deriv w K j b (T.forward (f j))).trans ?_
  rw [Finset.sum_neg_distrib,
    Finset.sum_congr rfl fun j _ => inner_forward hadj (Spec.deriv K j b) (f j), ← Finset.mul_sum, Finset.sum_comm]

theorem power_advection (v u : SArr d ι) : power w v (advection T.forward T.backward K u) = a * ∑ i, adv T.backward K u (u i) (v i) := by
  refine (Finset.sum_congr rfl fun i _ => inner_forward hadj (v i) _).trans ?_
  rw [← Finset.mul_sum]
  congr 1
  refine Finset.sum_congr rfl fun i _ => Finset.sum_congr rfl fun x _ => ?_
  rw [Finset.mul_sum]
  exact Finset.sum_congr rfl fun j _ => mul_comm _ _

theorem power_divergenceForm (v u : SArr d ι) :
    power w v (divergenceForm T.forward T.backward K u) = -(a * ∑ i, adv T.backward K u (v i) (u i)) := by
  refine (Finset.sum_congr rfl fun i _ => inner_divergence hadj K (v i) fun j x => T.backward (u i) x * T.backward (u j) x).trans ?_
  rw [Finset.sum_neg_distrib, ← Finset.mul_sum]
  congr 2
  refine Finset.sum_congr rfl fun i _ => Finset.sum_congr rfl fun x _ => Finset.sum_congr rfl fun j _ => ?_
  ring

theorem power_stressDiv (v u b : SArr d ι) :
    power w v (stressDiv T.forward T.backward K u b) = -(a * ∑ i, (adv T.backward K u (v i) (u i) - adv T.backward K b (v i) (b i))) := by
  refine (Finset.sum_congr rfl fun i _ => inner_divergence hadj K (v i) fun j x =>
    T.backward (u i) x * T.backward (u j) x - T.backward (b i) x * T.backward (b j) x).trans ?_
  rw [Finset.sum_neg_distrib, ← Finset.mul_sum]
  congr 2
  refine Finset.sum_congr rfl fun i _ => ?_
  simp only [adv, ← Finset.sum_sub_distrib]
  refine Finset.sum_congr rfl fun x _ => Finset.sum_congr rfl fun j _ => ?_
  ring

theorem power_induction (v u b : SArr d ι) :
    power w v (induction T.forward T.backward K u b) = -(a * ∑ i, (adv T.backward K b (v i) (u i) - adv T.backward K u (v i) (b i))) := by
  refine (Finset.sum_congr rfl fun i _ => inner_divergence hadj K (v i) fun j x =>
    T.backward (b j) x * T.backward (u i) x - T.backward (u j) x * T.backward (b i) x).trans ?_
  rw [Finset.sum_neg_distrib, ← Finset.mul_sum]
  congr 2
  refine Finset.sum_congr rfl fun i _ => ?_
  simp only [adv, ← Finset.sum_sub_distrib]
  refine Finset.sum_congr rfl fun x _ => Finset.sum_congr rfl fun j _ => ?_
  ring

theorem inner_fluxDiv (f : ι → ℂ) (u : SArr d ι) (rho : ι → ℂ) :
    Spec.inner w f (fluxDiv T.forward T.backward K u rho) = -(a * adv T.backward K u f rho) := by
  refine (inner_divergence hadj K f fun j x => T.backward (u j) x * T.backward rho x).trans ?_
  congr 2
  refine Finset.sum_congr rfl fun x _ => Finset.sum_congr rfl fun j _ => ?_
  ring

end

/-- The vortex form does no work on any combination of velocity and vorticity. -/
theorem power_lamb {T : Space ι X} {w : ι → ℝ} {a : ℝ} (hadj : Adjoint w a T.forward T.backward) (K : Fin 3 → ι → ℝ) (u : SArr 3 ι) :
    power w u (lamb T.forward T.backward K u) = 0 ∧ power w (curl K u) (lamb T.forward T.backward K u) = 0 := by
  have h : ∀ v : SArr 3 ι, (∀ x, ∑ i, T.backward (v i) x * cross (fun j => T.backward (u j) x) (fun j => T.backward (curl K u j) x) i = 0) →
      power w v (lamb T.forward T.backward K u) = 0 := fun v hv => by
    refine (Finset.sum_congr rfl fun i _ => inner_forward hadj (v i) _).trans ?_
    rw [← Finset.mul_sum, Finset.sum_comm,
      Finset.sum_eq_zero fun x _ => hv x, mul_zero]
  obtain ⟨h1, h2, h3, h4, h5, h6⟩ := fin3_add
  constructor <;> refine h _ fun x => ?_ <;> simp only [Fin.sum_univ_three, cross, h1, h2, h3, h4, h5, h6] <;> ring

end SpectralDNS.Periodic

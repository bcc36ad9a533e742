import Verif.Lemmas.BoxFourier
import Mathlib.Analysis.Fourier.AddCircleMulti
import Mathlib.MeasureTheory.Function.Jacobian
import Mathlib.Topology.Algebra.Group.Quotient
import Mathlib.Analysis.PSeries

/-!
# The Fourier series of a smooth periodic function on the box
-/

namespace SpectralDNS.Torus

open Complex Spec Periodic Dealias MeasureTheory
open scoped ContDiff

variable {d : ℕ}

theorem periodic_int {F : Type*} {L : Fin d → ℝ} {f : (Fin d → ℝ) → F} (hf : BoxPeriodic L f) (m : Fin d → ℤ) (x : Fin d → ℝ) :
    f (x + fun i => (m i : ℝ) * L i) = f x := by
  let S : AddSubgroup (Fin d → ℝ) :=
    { carrier := {v | ∀ x, f (x + v) = f x}
      zero_mem' := fun x => by rw [add_zero]
      add_mem' := fun {a b} ha hb x => by rw [← add_assoc, hb, ha]
      neg_mem' := fun {a} ha x => by rw [← ha (x + -a), neg_add_cancel_right] }
  have h1 : ∀ i, Pi.single i (L i) ∈ S := fun i x => hf i x
  have h2 : (fun i => (m i : ℝ) * L i) = ∑ i, m i • (Pi.single i (L i) : Fin d → ℝ) := by
    funext l
    simp [Finset.sum_apply, Pi.single_apply]
  have h3 : (fun i => (m i : ℝ) * L i) ∈ S := by
    rw [h2]
    exact S.sum_mem fun i _ => S.zsmul_mem (h1 i) (m i)
  exact h3 x

theorem integral_scale {L : Fin d → ℝ} (hL : ∀ i, 0 < L i) (g : (Fin d → ℝ) → ℂ) :
    ∫ x in Set.Icc 0 L, g x = ((∏ i, L i : ℝ) : ℂ) * ∫ x in {x : Fin d → ℝ | ∀ i, x i ∈ Set.Ioc ((0 : Fin d → ℝ) i) ((0 : Fin d → ℝ) i + 1)},
      g fun i => L i * x i := by
  let A : (Fin d → ℝ) →L[ℝ] (Fin d → ℝ) := LinearMap.toContinuousLinearMap (Matrix.toLin' (Matrix.diagonal L))
  have hA : ∀ x, A x = fun i => L i * x i := fun x => by
    funext i
    simp [A, Matrix.mulVec_diagonal]
  have hdet : A.det = ∏ i, L i := by
    have : A.det = LinearMap.det (Matrix.toLin' (Matrix.diagonal L)) := by
      rw [ContinuousLinearMap.det]; rfl
    rw [this, LinearMap.det_toLin', Matrix.det_diagonal]
  set s : Set (Fin d → ℝ) := {x : Fin d → ℝ | ∀ i, x i ∈ Set.Ioc ((0 : Fin d → ℝ) i) ((0 : Fin d → ℝ) i + 1)} with hs
  have hms : MeasurableSet s := MeasurableSet.univ_pi' fun i => measurableSet_Ioc
  have himg : A '' s = Set.pi Set.univ fun i => Set.Ioc ((0 : Fin d → ℝ) i) (L i) := by
    ext y
    simp only [Set.mem_image, Set.mem_pi, Set.mem_univ, true_implies]
    constructor
    · rintro ⟨x, hx, rfl⟩ i
      have := hx i
      simp only [Pi.zero_apply, zero_add, Set.mem_Ioc] at this ⊢
      rw [hA]
      exact ⟨mul_pos (hL i) this.1, by nlinarith [hL i, this.2]⟩
    · intro hy
      refine ⟨fun i => y i / L i, fun i => ?_, ?_⟩
      · have := hy i
        simp only [Pi.zero_apply, zero_add, Set.mem_Ioc] at this ⊢
        exact ⟨div_pos this.1 (hL i), (div_le_one (hL i)).2 this.2⟩
      · rw [hA]
        funext i
        have := (hL i).ne'
        field_simp
  have hinj : Set.InjOn A s := fun x _ y _ h => by
    rw [hA, hA] at h
    funext i
    exact mul_left_cancel₀ (hL i).ne' (congrFun h i)
  have h := integral_image_eq_integral_abs_det_fderiv_smul (μ := volume) hms (fun x _ => A.hasFDerivAt.hasFDerivWithinAt) hinj g
  rw [himg, hdet, abs_of_pos (Finset.prod_pos fun i _ => hL i)] at h
  rw [volume_pi, ← setIntegral_congr_set Measure.univ_pi_Ioc_ae_eq_Icc, ← volume_pi, h, integral_smul]
  simp only [hA, real_smul]

theorem equivIoc_int (y : ℝ) : ∃ k : ℤ, y = (AddCircle.equivIoc (1 : ℝ) 0 (y : UnitAddCircle)).1 + k := by
  have h : (((AddCircle.equivIoc (1 : ℝ) 0 (y : UnitAddCircle)).1 : ℝ) : UnitAddCircle) = (y : UnitAddCircle) := AddCircle.coe_equivIoc
  obtain ⟨k, hk⟩ := AddSubgroup.mem_zmultiples_iff.1 (QuotientAddGroup.eq.1 h)
  refine ⟨k, ?_⟩
  rw [zsmul_eq_mul, mul_one] at hk
  linarith

theorem lift_eq {F : Type*} {L : Fin d → ℝ} {f : (Fin d → ℝ) → F} (hp : BoxPeriodic L f) (y : Fin d → ℝ) :
    (f fun i => L i * (AddCircle.equivIoc (1 : ℝ) 0 ((y i : ℝ) : UnitAddCircle)).1) = f fun i => L i * y i := by
  choose k hk using fun i => equivIoc_int (y i)
  rw [← periodic_int hp k]
  congr 1
  funext i
  simp only [Pi.add_apply]
  conv_rhs => rw [hk i]
  ring

/-- The function on the unit torus of a periodic function on the box. -/
noncomputable def lift {L : Fin d → ℝ} {f : (Fin d → ℝ) → ℝ} (hf : Continuous f) (hp : BoxPeriodic L f) : C(UnitAddTorus (Fin d), ℂ) where
  toFun z := (f fun i => L i * (AddCircle.equivIoc 1 0 (z i)).1 : ℝ)
  continuous_toFun := by
    have hq : IsOpenQuotientMap (Pi.map fun _ : Fin d => (QuotientAddGroup.mk : ℝ → UnitAddCircle)) :=
      IsOpenQuotientMap.piMap fun _ => QuotientAddGroup.isOpenQuotientMap_mk
    rw [hq.isQuotientMap.continuous_iff]
    have e : ((fun z : UnitAddTorus (Fin d) => ((f fun i => L i * (AddCircle.equivIoc 1 0 (z i)).1 : ℝ) : ℂ)) ∘
        Pi.map fun _ : Fin d => (QuotientAddGroup.mk : ℝ → UnitAddCircle)) = fun y : Fin d → ℝ => ((f fun i => L i * y i : ℝ) : ℂ) := by
      funext y
      exact congrArg _ (lift_eq hp y)
    rw [e]
    exact continuous_ofReal.comp (hf.comp (continuous_pi fun i => continuous_const.mul (continuous_apply i)))

theorem mFourier_eq {L : Fin d → ℝ} (hL : ∀ i, 0 < L i) (m : Fin d → ℤ) (y : Fin d → ℝ) :
    UnitAddTorus.mFourier m (fun i => ((y i : ℝ) : UnitAddCircle)) = cwave L m fun i => L i * y i := by
  simp only [UnitAddTorus.mFourier, ContinuousMap.coe_mk]
  rw [cwave, Finset.mul_sum, Complex.exp_sum]
  refine Finset.prod_congr rfl fun i _ => ?_
  rw [fourier_coe_apply]
  congr 1
  have hl : (L i : ℂ) ≠ 0 := by exact_mod_cast (hL i).ne'
  push_cast
  field_simp

theorem lift_coef {L : Fin d → ℝ} (hL : ∀ i, 0 < L i) {f : (Fin d → ℝ) → ℝ} (hf : Continuous f) (hp : BoxPeriodic L f) (m : Fin d → ℤ) :
    UnitAddTorus.mFourierCoeff (lift hf hp) m = coef L f m := by
  have hpos : ((∏ i, L i : ℝ) : ℂ) ≠ 0 := by exact_mod_cast (Finset.prod_pos fun i _ => hL i).ne'
  rw [UnitAddTorus.mFourierCoeff_eq_integral _ _ 0, coef, integral_scale hL, ← mul_assoc, inv_mul_cancel₀ hpos, one_mul]
  congr 1
  funext y
  rw [mFourier_eq hL, smul_eq_mul, mul_comm]
  congr 1
  exact congrArg (fun r : ℝ => (r : ℂ)) (lift_eq hp y)

/-- The Fourier series converges to the function. -/
theorem hasSum_series {L : Fin d → ℝ} (hL : ∀ i, 0 < L i) {f : (Fin d → ℝ) → ℝ} (hf : Continuous f) (hp : BoxPeriodic L f)
    (hs : Summable (coef L f)) (x : Fin d → ℝ) : HasSum (fun m => coef L f m * cwave L m x) (f x : ℂ) := by
  have h1 : Summable (UnitAddTorus.mFourierCoeff (lift hf hp)) := by
    rw [show UnitAddTorus.mFourierCoeff (lift hf hp) = coef L f from funext (lift_coef hL hf hp)]
    exact hs
  have h := UnitAddTorus.hasSum_mFourier_series_apply_of_summable h1 fun i => ((x i / L i : ℝ) : UnitAddCircle)
  have e : (fun i => L i * (x i / L i)) = x := funext fun i => by have := (hL i).ne'; field_simp
  have e2 : (lift hf hp) (fun i => ((x i / L i : ℝ) : UnitAddCircle)) = (f x : ℂ) := by
    refine (congrArg (fun r : ℝ => (r : ℂ)) (lift_eq hp fun i => x i / L i)).trans ?_
    rw [e]
  rw [e2] at h
  convert h using 2 with m
  rw [lift_coef hL, mFourier_eq hL, e, smul_eq_mul]

/-! ## Summability and tails -/

theorem summable_pi_prod {g : Fin d → ℤ → ℝ} (h0 : ∀ j k, 0 ≤ g j k) (hs : ∀ j, Summable (g j)) : Summable fun m : Fin d → ℤ => ∏ j, g j (m j) := by
  classical
  refine summable_of_sum_le (c := ∏ j, ∑' k, g j k) (fun m => Finset.prod_nonneg fun j _ => h0 j _) fun s => ?_
  calc ∑ m ∈ s, ∏ j, g j (m j) ≤ ∑ m ∈ Fintype.piFinset fun j => s.image fun m => m j, ∏ j, g j (m j) :=
        Finset.sum_le_sum_of_subset_of_nonneg (fun m hm => Fintype.mem_piFinset.2 fun j => Finset.mem_image_of_mem (fun m => m j) hm)
          fun m _ _ => Finset.prod_nonneg fun j _ => h0 j _
    _ = ∏ j, ∑ k ∈ s.image fun m => m j, g j k := (Finset.prod_univ_sum _ _).symm
    _ ≤ ∏ j, ∑' k, g j k := Finset.prod_le_prod (fun j _ => Finset.sum_nonneg fun k _ => h0 j k) fun j _ => (hs j).sum_le_tsum _ fun k _ => h0 j k

theorem summable_inv_sq {c : ℝ} (hc : 0 < c) : Summable fun k : ℤ => (1 + (c * k) ^ 2)⁻¹ := by
  have h1 : Summable fun k : ℤ => 1 / (k : ℝ) ^ 2 := Real.summable_one_div_int_pow.2 (by norm_num)
  have h2 : Summable fun k : ℤ => if k = 0 then (1 : ℝ) else 0 := (hasSum_ite_eq 0 1).summable
  refine Summable.of_nonneg_of_le (fun k => by positivity) (fun k => ?_) ((h1.mul_left (1 / c ^ 2)).add h2)
  by_cases hk : k = 0
  · simp [hk]
  · rw [if_neg hk, add_zero, ← one_div, div_mul_div_comm, one_mul]
    have : (0 : ℝ) < (k : ℝ) ^ 2 := by positivity
    refine one_div_le_one_div_of_le (by positivity) ?_
    nlinarith

/-- `1 / prod (1 + kappa_j^2)`. -/
noncomputable def majorant (L : Fin d → ℝ) (m : Fin d → ℤ) : ℝ := ∏ j, (1 + (kappa L m j) ^ 2)⁻¹

theorem majorant_nonneg (L : Fin d → ℝ) (m : Fin d → ℤ) : 0 ≤ majorant L m := Finset.prod_nonneg fun j _ => by positivity

theorem summable_majorant {L : Fin d → ℝ} (hL : ∀ i, 0 < L i) : Summable (majorant L) := by
  have hpi := Real.pi_pos
  exact summable_pi_prod (g := fun j k => (1 + (2 * Real.pi / L j * k) ^ 2)⁻¹) (fun j k => by positivity)
    fun j => summable_inv_sq (div_pos (by positivity) (hL j))

theorem le_majorant {L : Fin d → ℝ} {m : Fin d → ℤ} {a C : ℝ} {s : ℕ} (ha : 0 ≤ a) (h : (1 + ∑ j, (kappa L m j) ^ 2) ^ (d + s) * a ≤ C) :
    (1 + ∑ j, (kappa L m j) ^ 2) ^ s * a ≤ C * majorant L m := by
  have h1 : ∀ j, 1 + (kappa L m j) ^ 2 ≤ 1 + ∑ j, (kappa L m j) ^ 2 := fun j => by
    have := Finset.single_le_sum (f := fun j => (kappa L m j) ^ 2) (fun j _ => sq_nonneg _) (Finset.mem_univ j)
    linarith
  have h2 : ∏ j, (1 + (kappa L m j) ^ 2) ≤ (1 + ∑ j, (kappa L m j) ^ 2) ^ d := by
    refine (Finset.prod_le_prod (fun j _ => by positivity) fun j _ => h1 j).trans ?_
    simp
  have hp : 0 < ∏ j, (1 + (kappa L m j) ^ 2) := Finset.prod_pos fun j _ => by positivity
  rw [majorant, Finset.prod_inv_distrib, ← div_eq_mul_inv, le_div_iff₀ hp]
  refine le_trans ?_ h
  rw [pow_add]
  have : 0 ≤ (1 + ∑ j, (kappa L m j) ^ 2) ^ s * a := by positivity
  calc (1 + ∑ j, (kappa L m j) ^ 2) ^ s * a * ∏ j, (1 + (kappa L m j) ^ 2) ≤ (1 + ∑ j, (kappa L m j) ^ 2) ^ s * a * (1 + ∑ j, (kappa L m j) ^ 2) ^ d :=
        mul_le_mul_of_nonneg_left h2 this
    _ = _ := by ring

/-! ## Approximation in the mean square -/

theorem coef_neg (L : Fin d → ℝ) (f : (Fin d → ℝ) → ℝ) (m : Fin d → ℤ) : coef L f (-m) = (starRingEnd ℂ) (coef L f m) := by
  rw [coef, coef, map_mul, map_inv₀, conj_ofReal, ← integral_conj]
  congr 2
  funext x
  rw [map_mul, conj_ofReal, conj_cwave]

theorem norm_coef_le_mean (L : Fin d → ℝ) (hL : ∀ i, 0 < L i) (f : (Fin d → ℝ) → ℝ) (m : Fin d → ℤ) : ‖coef L f m‖ ≤ boxMean L fun x => |f x| := by
  have hpos : 0 < ∏ i, L i := Finset.prod_pos fun i _ => hL i
  rw [coef, norm_mul, norm_inv, norm_real, Real.norm_eq_abs, abs_of_pos hpos, boxMean]
  refine mul_le_mul_of_nonneg_left ?_ (inv_nonneg.2 hpos.le)
  refine (norm_integral_le_integral_norm _).trans_eq ?_
  congr 1
  funext x
  rw [norm_mul, norm_cwave, mul_one, norm_real, Real.norm_eq_abs]

theorem boxMean_nonneg {L : Fin d → ℝ} (hL : ∀ i, 0 < L i) {f : (Fin d → ℝ) → ℝ} (h : ∀ x ∈ Set.Icc 0 L, 0 ≤ f x) : 0 ≤ boxMean L f :=
  mul_nonneg (inv_nonneg.2 (Finset.prod_nonneg fun i _ => (hL i).le)) (setIntegral_nonneg measurableSet_Icc h)

theorem boxMean_mono {L : Fin d → ℝ} (hL : ∀ i, 0 < L i) {f g : (Fin d → ℝ) → ℝ} (hf : Continuous f) (hg : Continuous g)
    (h : ∀ x ∈ Set.Icc 0 L, f x ≤ g x) : boxMean L f ≤ boxMean L g :=
  mul_le_mul_of_nonneg_left (setIntegral_mono_on hf.integrableOn_Icc hg.integrableOn_Icc measurableSet_Icc h)
    (inv_nonneg.2 (Finset.prod_nonneg fun i _ => (hL i).le))

theorem boxMean_const {L : Fin d → ℝ} (hL : ∀ i, 0 < L i) (c : ℝ) : boxMean L (fun _ => c) = c := by
  have hpos : 0 < ∏ i, L i := Finset.prod_pos fun i _ => hL i
  rw [boxMean, setIntegral_const, Measure.real, Real.volume_Icc_pi_toReal (a := 0) (fun i => (hL i).le), smul_eq_mul]
  simp only [Pi.zero_apply, sub_zero]
  field_simp

theorem boxMean_abs_le {L : Fin d → ℝ} (hL : ∀ i, 0 < L i) {f : (Fin d → ℝ) → ℝ} (hf : Continuous f) :
    (boxMean L fun x => |f x|) ≤ Real.sqrt (boxMean L fun x => f x ^ 2) := by
  set r := Real.sqrt (boxMean L fun x => f x ^ 2) with hr
  have h0 : 0 ≤ boxMean L fun x => f x ^ 2 := boxMean_nonneg hL fun x _ => sq_nonneg _
  refine le_of_forall_pos_le_add fun e he => ?_
  have hre : 0 < r + e := by have := Real.sqrt_nonneg (boxMean L fun x => f x ^ 2); linarith
  have h1 : (boxMean L fun x => |f x|) ≤ boxMean L fun x => (2 * (r + e))⁻¹ * f x ^ 2 + (r + e) / 2 := by
    refine boxMean_mono hL hf.abs ((continuous_const.mul (hf.pow 2)).add continuous_const) fun x _ => ?_
    rw [inv_mul_eq_div, div_add_div _ _ (by positivity) (by norm_num), le_div_iff₀ (by positivity)]
    nlinarith [sq_nonneg (|f x| - (r + e)), sq_abs (f x)]
  have h2 : (boxMean L fun x => (2 * (r + e))⁻¹ * f x ^ 2 + (r + e) / 2) = (2 * (r + e))⁻¹ * r ^ 2 + (r + e) / 2 := by
    rw [hr, Real.sq_sqrt h0, ← hr]
    have c1 : Continuous fun x => (2 * (r + e))⁻¹ * f x ^ 2 := continuous_const.mul (hf.pow 2)
    have e1 := boxMean_const hL ((r + e) / 2)
    simp only [boxMean] at e1 ⊢
    rw [integral_add c1.integrableOn_Icc continuous_const.integrableOn_Icc, mul_add, e1, integral_const_mul]
    ring
  rw [h2] at h1
  have h3 : (2 * (r + e))⁻¹ * r ^ 2 ≤ (r + e) / 2 := by
    rw [inv_mul_le_iff₀ (by positivity)]
    nlinarith [Real.sqrt_nonneg (boxMean L fun x => f x ^ 2)]
  linarith

/-- A function orthogonal to the kept waves and to `f` minus itself is as small as the remaining coefficients of `f`. -/
theorem mean_sq_le {L : Fin d → ℝ} (hL : ∀ i, 0 < L i) {f r : (Fin d → ℝ) → ℝ} (hf : Continuous f) (hp : BoxPeriodic L f) (hr : Continuous r)
    (hs : Summable (coef L f)) (hself : (boxMean L fun x => r x ^ 2) = boxMean L fun x => r x * f x) (kept : (Fin d → ℤ) → Prop)
    (hk : ∀ m, kept m → coef L r m = 0) {g : (Fin d → ℤ) → ℝ} (hg : Summable g) (hg0 : ∀ m, 0 ≤ g m) {c : ℝ} (hc : 0 ≤ c)
    (hb : ∀ m, ¬kept (-m) → ‖coef L f m‖ ≤ c * g m) : (boxMean L fun x => r x ^ 2) ≤ (c * ∑' m, g m) ^ 2 := by
  have h1 : HasSum (fun m => coef L f m * coef L r (-m)) ((boxMean L fun x => r x * f x : ℝ) : ℂ) := by
    have hi : ∀ m, Continuous fun x => (r x : ℂ) * (coef L f m * cwave L m x) := fun m =>
      (continuous_ofReal.comp hr).mul (continuous_const.mul (cwave_continuous L m))
    have h := hasSum_integral_of_summable_integral_norm (μ := volume.restrict (Set.Icc 0 L)) (F := fun m x => (r x : ℂ) * (coef L f m * cwave L m x))
      (fun m => (hi m).integrableOn_Icc) (by
        have : ∀ m, ∫ x in Set.Icc 0 L, ‖(r x : ℂ) * (coef L f m * cwave L m x)‖ = ‖coef L f m‖ * ∫ x in Set.Icc 0 L, ‖(r x : ℂ)‖ := fun m => by
          rw [← integral_const_mul]
          congr 1
          funext x
          rw [norm_mul, norm_mul, norm_cwave, mul_one, mul_comm]
        simp only [this]
        exact hs.norm.mul_right _)
    have e : ∀ x, ∑' m, (r x : ℂ) * (coef L f m * cwave L m x) = (r x : ℂ) * f x := fun x => ((hasSum_series hL hf hp hs x).mul_left (r x : ℂ)).tsum_eq
    simp only [e] at h
    have h' := h.mul_left ((∏ i, L i : ℝ) : ℂ)⁻¹
    have e1 : (fun m => coef L f m * coef L r (-m)) = fun m => ((∏ i, L i : ℝ) : ℂ)⁻¹ * ∫ x in Set.Icc 0 L, (r x : ℂ) * (coef L f m * cwave L m x) := by
      funext m
      have : ∀ x, (r x : ℂ) * (coef L f m * cwave L m x) = coef L f m * ((r x : ℂ) * cwave L m x) := fun x => by ring
      simp only [this]
      rw [integral_const_mul, show coef L r (-m) = ((∏ i, L i : ℝ) : ℂ)⁻¹ * ∫ x in Set.Icc 0 L, (r x : ℂ) * cwave L m x by rw [coef, neg_neg]]
      ring
    have e2 : ((boxMean L fun x => r x * f x : ℝ) : ℂ) = ((∏ i, L i : ℝ) : ℂ)⁻¹ * ∫ x in Set.Icc 0 L, (r x : ℂ) * f x := by
      have : ∀ x, (r x : ℂ) * f x = ((r x * f x : ℝ) : ℂ) := fun x => by push_cast; ring
      simp only [this]
      rw [integral_complex_ofReal, boxMean, ofReal_mul, ofReal_inv]
    rw [e1, e2]
    exact h'
  have h2 : ‖((boxMean L fun x => r x * f x : ℝ) : ℂ)‖ ≤ (c * ∑' m, g m) * boxMean L fun x => |r x| := by
    have hgs := ((hg.hasSum.mul_left c).mul_right (boxMean L fun x => |r x|))
    refine h1.norm_le_of_bounded hgs fun m => ?_
    by_cases hm : kept (-m)
    · rw [hk _ hm, mul_zero, norm_zero]
      exact mul_nonneg (mul_nonneg hc (hg0 m)) (boxMean_nonneg hL fun x _ => abs_nonneg _)
    · rw [norm_mul]
      exact mul_le_mul (hb m hm) (norm_coef_le_mean L hL r _) (norm_nonneg _) (mul_nonneg hc (hg0 m))
  rw [norm_real, ← hself, Real.norm_eq_abs] at h2
  have h0 : 0 ≤ boxMean L fun x => r x ^ 2 := boxMean_nonneg hL fun x _ => sq_nonneg _
  rw [abs_of_nonneg h0] at h2
  have hG : 0 ≤ c * ∑' m, g m := mul_nonneg hc (tsum_nonneg hg0)
  have h3 := h2.trans (mul_le_mul_of_nonneg_left (boxMean_abs_le hL hr) hG)
  set q := Real.sqrt (boxMean L fun x => r x ^ 2) with hq
  have hq0 : 0 ≤ q := Real.sqrt_nonneg _
  have hqq : q ^ 2 = boxMean L fun x => r x ^ 2 := Real.sq_sqrt h0
  rw [← hqq] at h3 ⊢
  rcases hq0.eq_or_lt with h | h
  · rw [← h, zero_pow two_ne_zero]; exact sq_nonneg _
  · have : q ≤ c * ∑' m, g m := by
      by_contra h'
      push Not at h'
      nlinarith
    nlinarith

end SpectralDNS.Torus

import Verif.Lemmas.GalerkinTime

/-!
# Products of functions on the grid without dealiasing

The mean over the grid points of the work of the vortex form of convection against its mean over the box.
-/

namespace SpectralDNS.Torus

open Complex Spec Periodic Dealias MeasureTheory
open scoped ContDiff

/-! ## Truncated series in the maximum norm -/

section
variable {n : ℕ} (N : Fin (n + 1) → ℕ) (L : Fin (n + 1) → ℝ)

theorem coef_fn (hL : ∀ i, 0 < L i) {a : RModes N → ℂ} (ha : Unmasked N a) (m : Fin (n + 1) → ℤ) (hm : ¬Kept N m) : coef L (fn N L a) m = 0 := by
  rw [coef]
  have e : ∀ x, ((fn N L a x : ℝ) : ℂ) * cwave L (-m) x = ∑ p ∈ unmasked N, extend N a p * cwave L (p + -m) x := fun x => by
    rw [trigField_eq N L a ha, Finset.sum_mul]
    exact Finset.sum_congr rfl fun p _ => by rw [mul_assoc, cwave_mul]
  simp only [e]
  rw [integral_finset_sum _ fun p _ => (continuous_const.fun_mul (cwave_continuous L _)).integrableOn_Icc, Finset.sum_eq_zero, mul_zero]
  intro p hp
  rw [integral_const_mul, integral_cwave L hL, if_neg, mul_zero]
  intro h
  refine hm fun i => ?_
  have h1 : p i = m i := by
    have := congrFun h i
    simp only [Pi.add_apply, Pi.neg_apply, Pi.zero_apply] at this
    linarith
  rw [← h1]
  exact (mem_unmasked N p).1 hp i

/-- Error of the truncated series at every point. -/
theorem proj_sup (hN : ∀ i, 0 < N i) (hL : ∀ i, 0 < L i) {f : (Fin (n + 1) → ℝ) → ℝ} (hf : Continuous f) (hp : BoxPeriodic L f) {s : ℕ} {C : ℝ}
    (hC : ∀ m, (1 + ∑ j, (kappa L m j) ^ 2) ^ (n + 1 + s) * ‖coef L f m‖ ≤ C) {K : ℝ} (hK : 0 ≤ K) (hKN : ∀ i, K ≤ Real.pi * N i / L i) (x) :
    |f x - fn N L (proj N L f) x| ≤ C / (1 + K ^ 2) ^ s * ∑' m, majorant L m := by
  have hcf : Continuous (fn N L (proj N L f)) := trigField_continuous _ _ _
  have hc : Continuous fun x => f x - fn N L (proj N L f) x := hf.sub hcf
  have hpf := fn_periodic N L hL (proj N L f)
  have hpr : BoxPeriodic L fun x => f x - fn N L (proj N L f) x := fun i x => by simp only [hp i x, hpf i x]
  have hC0 : 0 ≤ C := le_trans (by positivity) (hC 0)
  have hb : ∀ m, (1 + ∑ j, (kappa L m j) ^ 2) ^ s * ‖coef L f m‖ ≤ C * majorant L m := fun m => le_majorant (norm_nonneg _) (hC m)
  have hcr : ∀ m, ‖coef L (fun x => f x - fn N L (proj N L f) x) m‖ ≤ C / (1 + K ^ 2) ^ s * majorant L m := fun m => by
    by_cases hm : Kept N m
    · rw [proj_kept N L hN hL hf m hm, norm_zero]
      exact mul_nonneg (by positivity) (majorant_nonneg L m)
    rw [coef_sub L hf hcf, coef_fn N L hL (proj_unmasked N L f) m hm, sub_zero]
    have h2 : 1 + K ^ 2 ≤ 1 + ∑ j, (kappa L m j) ^ 2 := by
      unfold Kept at hm
      push Not at hm
      obtain ⟨i, hi⟩ := hm
      have h3 : (kappa L m i) ^ 2 ≤ ∑ j, (kappa L m j) ^ 2 :=
        Finset.single_le_sum (f := fun j => (kappa L m j) ^ 2) (fun j _ => sq_nonneg _) (Finset.mem_univ i)
      have h4 : (N i : ℝ) ≤ 2 * |(m i : ℝ)| := by
        have : (N i : ℤ) ≤ 2 * |m i| := by
          by_cases hlt : -(N i : ℤ) < 2 * m i
          · have := hi hlt
            have := le_abs_self (m i)
            omega
          · have := neg_le_abs (m i)
            omega
        exact_mod_cast this
      have h5 : K ≤ |kappa L m i| := by
        refine (hKN i).trans ?_
        have hpi := Real.pi_pos
        rw [kappa, abs_mul, abs_of_pos (div_pos (by positivity) (hL i)), div_mul_eq_mul_div]
        refine div_le_div_of_nonneg_right ?_ (hL i).le
        nlinarith
      have h6 : K ^ 2 ≤ (kappa L m i) ^ 2 := by
        rw [← sq_abs (kappa L m i)]
        exact pow_le_pow_left₀ hK h5 2
      linarith
    rw [div_mul_eq_mul_div, le_div_iff₀ (by positivity), mul_comm]
    exact (mul_le_mul_of_nonneg_right (pow_le_pow_left₀ (by positivity) h2 s) (norm_nonneg _)).trans (hb m)
  have hsm := (summable_majorant hL).mul_left (C / (1 + K ^ 2) ^ s)
  have hs : Summable (coef L fun x => f x - fn N L (proj N L f) x) := Summable.of_norm_bounded hsm hcr
  have h := hasSum_series hL hc hpr hs x
  have := h.norm_le_of_bounded ((summable_majorant hL).hasSum.mul_left (C / (1 + K ^ 2) ^ s)) fun m => by
    rw [norm_mul, norm_cwave, mul_one]
    exact hcr m
  rwa [norm_real, Real.norm_eq_abs] at this

/-! ## Means over the points of a grid -/

/-- Mean over the points of the grid with `M` points. -/
noncomputable def gridMean (M : Fin (n + 1) → ℕ) (f : (Fin (n + 1) → ℝ) → ℝ) : ℝ :=
  (1 / Fintype.card (Grid M) : ℝ) * ∑ x : Grid M, f fun i => L i * (x i : ℕ) / M i

variable (M : Fin (n + 1) → ℕ)

theorem gridMean_add (f g : (Fin (n + 1) → ℝ) → ℝ) : gridMean L M (fun x => f x + g x) = gridMean L M f + gridMean L M g := by
  simp only [gridMean, Finset.sum_add_distrib, mul_add]

theorem gridMean_const_mul (c : ℝ) (f : (Fin (n + 1) → ℝ) → ℝ) : gridMean L M (fun x => c * f x) = c * gridMean L M f := by
  simp only [gridMean, ← Finset.mul_sum]
  ring

theorem gridMean_sum {J : Type*} (s : Finset J) (f : J → (Fin (n + 1) → ℝ) → ℝ) : gridMean L M (fun x => ∑ j ∈ s, f j x) = ∑ j ∈ s, gridMean L M (f j) := by
  simp only [gridMean, ← Finset.mul_sum]
  rw [Finset.sum_comm]

theorem gridMean_mono {f g : (Fin (n + 1) → ℝ) → ℝ} (h : ∀ x, f x ≤ g x) : gridMean L M f ≤ gridMean L M g :=
  mul_le_mul_of_nonneg_left (Finset.sum_le_sum fun _ _ => h _) (by positivity)

theorem gridMean_const (hM : ∀ i, 0 < M i) (c : ℝ) : gridMean L M (fun _ => c) = c := by
  have hcard : (Fintype.card (Grid M) : ℝ) ≠ 0 := by
    have : ∀ i, Nonempty (Fin (M i)) := fun i => ⟨⟨0, hM i⟩⟩
    exact_mod_cast Fintype.card_ne_zero
  rw [gridMean, Finset.sum_const, Finset.card_univ, nsmul_eq_mul]
  field_simp

/-- Parseval on the grid: products of two functions without Nyquist modes are not aliased onto the mean. -/
theorem gridMean_inner (hN : ∀ i, 0 < N i) (hL : ∀ i, 0 < L i) (hNM : ∀ i, N i ≤ M i) {a : RModes N → ℂ} (b : RModes N → ℂ) (ha : Unmasked N a) (hr : IsReal N a) :
    gridMean L M (fun x => fn N L b x * fn N L a x) = Spec.inner (rweight N) b a := by
  have h := dft_adjoint (kernel (waves N) M) (rweight N) b ((rspace N M).backward a)
  have e : (dft (kernel (waves N) M) (rweight N)).forward ((rspace N M).backward a) = a := rspace_inverse N M hN hNM a ha hr
  rw [e] at h
  rw [gridMean, Spec.inner, h]
  congr 1
  refine Finset.sum_congr rfl fun x _ => ?_
  rw [← C83_grid N L M (fun i => (hL i).ne'), ← C83_grid N L M (fun i => (hL i).ne')]
  rfl

theorem gridMean_power (hN : ∀ i, 0 < N i) (hL : ∀ i, 0 < L i) (hNM : ∀ i, N i ≤ M i) {d : ℕ} {a : SArr d (RModes N)} (b : SArr d (RModes N)) (ha : ∀ i, Unmasked N (a i))
    (hr : ∀ i, IsReal N (a i)) : gridMean L M (fun x => ∑ i, fn N L (b i) x * fn N L (a i) x) = power (rweight N) b a := by
  rw [gridMean_sum, power_inner]
  exact Finset.sum_congr rfl fun i _ => gridMean_inner N L M hN hL hNM (b i) (ha i) (hr i)

end

/-! ## The vortex form -/

section
variable (N : Fin 3 → ℕ) (L : Fin 3 → ℝ) (M : Fin 3 → ℕ)

/-- Work of the vortex form on the grid. -/
theorem power_vortex (hL : ∀ i, 0 < L i) (s : Scratch 3 (RModes N) (Grid M)) (rhs U E : SArr 3 (RModes N)) :
    power (rweight N) E (convVortex s rhs U (rspace N M) (scaledWaves N L)) =
      gridMean L M fun x => ∑ i, fn N L (E i) x * cross (fun j => fn N L (U j) x) (fun j => fn N L (curl (scaledWaves N L) U j) x) i := by
  have hadj : Adjoint (rweight N) (1 / Fintype.card (Grid M)) (rspace N M).forward (rspace N M).backward := dft_adjoint (kernel (waves N) M) (rweight N)
  rw [convVortex_eq, power, gridMean_sum]
  refine Finset.sum_congr rfl fun i _ => ?_
  rw [lamb, hadj, gridMean]
  congr 1
  refine Finset.sum_congr rfl fun x _ => ?_
  simp only [C83_grid N L M (fun i => (hL i).ne')]

theorem curl_sub (K : Fin 3 → RModes N → ℝ) (a b : SArr 3 (RModes N)) : curl K (fun i k => a i k - b i k) = fun i k => curl K a i k - curl K b i k := by
  funext i k
  simp only [curl, cross]
  ring

theorem curl_unmasked {a : SArr 3 (RModes N)} (h : ∀ i, Unmasked N (a i)) (i : Fin 3) : Unmasked N (curl (scaledWaves N L) a i) := fun k hk => by
  simp only [curl, cross, h _ k hk]
  ring

theorem curl_real {a : SArr 3 (RModes N)} (h : ∀ i, IsReal N (a i)) (i : Fin 3) : IsReal N (curl (scaledWaves N L) a i) := fun k k' hk => by
  simp only [curl, cross, h _ k k' hk, scaledWaves, hk, map_mul, map_sub, conj_I, conj_ofReal]
  push_cast
  ring

/-- Components of the curl as derivatives. -/
theorem fn_curl (a : SArr 3 (RModes N)) (i : Fin 3) (x : Fin 3 → ℝ) :
    fn N L (curl (scaledWaves N L) a i) x = pderiv (i + 1) (fn N L (a (i + 2))) x - pderiv (i + 2) (fn N L (a (i + 1))) x := by
  simp only [fn, pderiv_trigField]
  rw [← fn_sub]
  congr 1
  funext k
  simp only [curl, cross, Spec.deriv]
  ring

/-- Pointwise: work of the vortex form on the error. -/
theorem cross_work {V θ g : ℝ} (hθ : 0 < θ) (e v w z h : Fin 3 → ℝ) (hv : ∀ i, |v i| ≤ V)
    (hg : ∀ i, |cross v w i - h i| ≤ g) :
    |∑ i, e i * cross (fun j => v j - e j) (fun j => w j - z j) i - ∑ i, e i * h i| ≤
      (1 / 2 + 2 * V ^ 2 / θ) * (∑ i, e i ^ 2) + θ / 2 * (∑ i, z i ^ 2) + 3 / 2 * g ^ 2 := by
  obtain ⟨h1, h2, h3, h4, h5, h6⟩ := fin3_add
  have hg0 : 0 ≤ g := (abs_nonneg _).trans (hg 0)
  have hV0 : 0 ≤ V := (abs_nonneg _).trans (hv 0)
  have key : ∑ i, e i * cross (fun j => v j - e j) (fun j => w j - z j) i - ∑ i, e i * h i =
      ∑ i, e i * (cross v w i - h i) + ∑ i, z i * -cross e v i := by
    simp only [Fin.sum_univ_three, cross, h1, h2, h3, h4, h5, h6]
    ring
  have q1 : ∀ i, |e i * (cross v w i - h i)| ≤ 1 / 2 * e i ^ 2 + 1 / 2 * g ^ 2 := fun i => by
    have h7 : (cross v w i - h i) ^ 2 ≤ g ^ 2 := by rw [← sq_abs]; exact pow_le_pow_left₀ (abs_nonneg _) (hg i) 2
    rw [abs_le]
    constructor <;> nlinarith [sq_nonneg (e i + (cross v w i - h i)), sq_nonneg (e i - (cross v w i - h i))]
  have q2 : ∀ i, |z i * -cross e v i| ≤ θ / 2 * z i ^ 2 + 1 / (2 * θ) * (2 * V ^ 2 * (e (i + 1) ^ 2 + e (i + 2) ^ 2)) := fun i => by
    have h7 : (cross e v i) ^ 2 ≤ 2 * V ^ 2 * (e (i + 1) ^ 2 + e (i + 2) ^ 2) := by
      have a1 : v (i + 2) ^ 2 ≤ V ^ 2 := by rw [← sq_abs]; exact pow_le_pow_left₀ (abs_nonneg _) (hv _) 2
      have a2 : v (i + 1) ^ 2 ≤ V ^ 2 := by rw [← sq_abs]; exact pow_le_pow_left₀ (abs_nonneg _) (hv _) 2
      have b1 := mul_le_mul_of_nonneg_left a1 (sq_nonneg (e (i + 1)))
      have b2 := mul_le_mul_of_nonneg_left a2 (sq_nonneg (e (i + 2)))
      rw [cross]
      nlinarith [sq_nonneg (e (i + 1) * v (i + 2) + e (i + 2) * v (i + 1))]
    have h8 : θ / 2 * z i ^ 2 + 1 / (2 * θ) * (2 * V ^ 2 * (e (i + 1) ^ 2 + e (i + 2) ^ 2)) ≥ θ / 2 * z i ^ 2 + 1 / (2 * θ) * cross e v i ^ 2 := by
      have := mul_le_mul_of_nonneg_left h7 (by positivity : 0 ≤ 1 / (2 * θ))
      linarith
    refine le_trans ?_ h8
    have e1 : θ / 2 * z i ^ 2 + 1 / (2 * θ) * cross e v i ^ 2 + z i * cross e v i = (θ * z i + cross e v i) ^ 2 / (2 * θ) := by field_simp; ring
    have e2 : θ / 2 * z i ^ 2 + 1 / (2 * θ) * cross e v i ^ 2 - z i * cross e v i = (θ * z i - cross e v i) ^ 2 / (2 * θ) := by field_simp; ring
    have p1 : 0 ≤ (θ * z i + cross e v i) ^ 2 / (2 * θ) := by positivity
    have p2 : 0 ≤ (θ * z i - cross e v i) ^ 2 / (2 * θ) := by positivity
    rw [abs_le]
    constructor <;> linarith
  rw [key]
  refine (abs_add_le _ _).trans ((add_le_add ((Finset.abs_sum_le_sum_abs _ _).trans (Finset.sum_le_sum fun i _ => q1 i))
    ((Finset.abs_sum_le_sum_abs _ _).trans (Finset.sum_le_sum fun i _ => q2 i))).trans_eq ?_)
  simp only [Fin.sum_univ_three, h1, h2, h3, h4, h5, h6]
  field_simp
  ring

/-- The work of the vortex form of `v - E` on `E`, on any grid that resolves the modes. -/
theorem vortex_work (hN : ∀ i, 0 < N i) (hL : ∀ i, 0 < L i) (hNM : ∀ i, N i ≤ M i) {V θ g : ℝ} (hθ : 0 < θ) {U E v h : SArr 3 (RModes N)}
    (hE : E = fun i k => v i k - U i k) (hEm : ∀ i, Unmasked N (E i)) (hEr : ∀ i, IsReal N (E i))
    (hv : ∀ i x, |fn N L (v i) x| ≤ V)
    (hg : ∀ i x, |cross (fun j => fn N L (v j) x) (fun j => fn N L (curl (scaledWaves N L) v j) x) i - fn N L (h i) x| ≤ g)
    (s : Scratch 3 (RModes N) (Grid M)) (rhs : SArr 3 (RModes N)) :
    |power (rweight N) E (convVortex s rhs U (rspace N M) (scaledWaves N L)) - power (rweight N) h E| ≤
      (1 / 2 + 2 * V ^ 2 / θ) * power (rweight N) E E + θ / 2 * power (rweight N) (curl (scaledWaves N L) E) (curl (scaledWaves N L) E) + 3 / 2 * g ^ 2 := by
  have hM : ∀ i, 0 < M i := fun i => (hN i).trans_le (hNM i)
  have hUE : U = fun i k => v i k - E i k := by rw [hE]; funext i k; ring
  have hcU := curl_sub N (scaledWaves N L) v E
  rw [← hUE] at hcU
  have hpt : ∀ x, |∑ i, fn N L (E i) x * cross (fun j => fn N L (U j) x) (fun j => fn N L (curl (scaledWaves N L) U j) x) i - ∑ i, fn N L (E i) x * fn N L (h i) x| ≤
      (1 / 2 + 2 * V ^ 2 / θ) * (∑ i, fn N L (E i) x ^ 2) + θ / 2 * (∑ i, fn N L (curl (scaledWaves N L) E i) x ^ 2) + 3 / 2 * g ^ 2 := fun x => by
    have := cross_work hθ (fun i => fn N L (E i) x) (fun i => fn N L (v i) x) (fun i => fn N L (curl (scaledWaves N L) v i) x)
      (fun i => fn N L (curl (scaledWaves N L) E i) x) (fun i => fn N L (h i) x) (fun i => hv i x) (fun i => hg i x)
    have e1 : (fun j => fn N L (U j) x) = fun j => fn N L (v j) x - fn N L (E j) x := funext fun j => by
      rw [hUE]; exact fn_sub _ _ _ _ _
    have e2 : (fun j => fn N L (curl (scaledWaves N L) U j) x) = fun j => fn N L (curl (scaledWaves N L) v j) x - fn N L (curl (scaledWaves N L) E j) x := funext fun j => by
      rw [hcU]; exact fn_sub _ _ _ _ _
    rw [e1, e2]
    exact this
  have m1 : gridMean L M (fun x => ∑ i, fn N L (E i) x ^ 2) = power (rweight N) E E := by
    rw [← gridMean_power N L M hN hL hNM E hEm hEr]
    simp only [sq]
  have m2 : gridMean L M (fun x => ∑ i, fn N L (curl (scaledWaves N L) E i) x ^ 2) = power (rweight N) (curl (scaledWaves N L) E) (curl (scaledWaves N L) E) := by
    rw [← gridMean_power N L M hN hL hNM _ (curl_unmasked N L hEm) (curl_real N L hEr)]
    simp only [sq]
  have m3 : gridMean L M (fun x => ∑ i, fn N L (E i) x * fn N L (h i) x) = power (rweight N) h E := by
    rw [← gridMean_power N L M hN hL hNM h hEm hEr]
    simp only [mul_comm]
  have m4 : gridMean L M (fun x => (1 / 2 + 2 * V ^ 2 / θ) * (∑ i, fn N L (E i) x ^ 2) + θ / 2 * (∑ i, fn N L (curl (scaledWaves N L) E i) x ^ 2) + 3 / 2 * g ^ 2) =
      (1 / 2 + 2 * V ^ 2 / θ) * power (rweight N) E E + θ / 2 * power (rweight N) (curl (scaledWaves N L) E) (curl (scaledWaves N L) E) + 3 / 2 * g ^ 2 := by
    rw [gridMean_add L M (fun x => (1 / 2 + 2 * V ^ 2 / θ) * (∑ i, fn N L (E i) x ^ 2) + θ / 2 * (∑ i, fn N L (curl (scaledWaves N L) E i) x ^ 2)),
      gridMean_add L M (fun x => (1 / 2 + 2 * V ^ 2 / θ) * (∑ i, fn N L (E i) x ^ 2)), gridMean_const_mul, gridMean_const_mul, gridMean_const L M hM, m1, m2]
  rw [power_vortex N L M hL s rhs U E, ← m3, ← m4, abs_le]
  constructor
  · have := gridMean_mono L M fun x => (neg_le_sub_iff_le_add.1 (abs_le.1 (hpt x)).1)
    rw [gridMean_add] at this
    linarith
  · have := gridMean_mono L M fun x => (sub_le_iff_le_add.1 (abs_le.1 (hpt x)).2)
    rw [gridMean_add] at this
    linarith

/-- The enstrophy is at most the dissipation. -/
theorem curl_le_grad (hN : ∀ i, 0 < N i) (hL : ∀ i, 0 < L i) {E : SArr 3 (RModes N)} (hEm : ∀ i, Unmasked N (E i)) (hEr : ∀ i, IsReal N (E i)) :
    power (rweight N) (curl (scaledWaves N L) E) (curl (scaledWaves N L) E) ≤ boxMean L (fun x => ∑ i, ∑ j, pderiv j (fn N L (E i)) x ^ 2) := by
  have hdm : ∀ i j, Unmasked N (Spec.deriv (scaledWaves N L) j (E i)) := fun i j k hk => by rw [Spec.deriv, hEm i k hk, mul_zero]
  have hdr : ∀ i j, IsReal N (Spec.deriv (scaledWaves N L) j (E i)) := fun i j k k' hk => by
    simp only [Spec.deriv, hEr i k k' hk, scaledWaves, hk, map_mul, conj_I, conj_ofReal]
    push_cast
    ring
  have hfn : ∀ a, Continuous (fn N L a) := fun a => trigField_continuous _ _ _
  have e : ∀ i j, pderiv j (fn N L (E i)) = fn N L (Spec.deriv (scaledWaves N L) j (E i)) := fun i j => by
    rw [fn, pderiv_trigField]
  simp only [e]
  rw [boxMean_sum L _ fun i => continuous_finsetSum _ fun j _ => (hfn _).fun_pow 2]
  have e2 : ∀ i, boxMean L (fun x => ∑ j, fn N L (Spec.deriv (scaledWaves N L) j (E i)) x ^ 2) =
      ∑ j, Spec.inner (rweight N) (Spec.deriv (scaledWaves N L) j (E i)) (Spec.deriv (scaledWaves N L) j (E i)) := fun i => by
    rw [boxMean_sum L _ fun j => (hfn _).fun_pow 2]
    refine Finset.sum_congr rfl fun j _ => ?_
    rw [← mean_inner N hN L hL _ _ (hdm i j) (hdm i j) (hdr i j)]
    simp only [sq]
  simp only [e2, power_inner, Spec.inner]
  rw [Finset.sum_comm]
  simp only [Finset.sum_comm (s := (Finset.univ : Finset (Fin 3))) (t := (Finset.univ : Finset (RModes N)))]
  refine Finset.sum_le_sum fun k _ => ?_
  obtain ⟨h1, h2, h3, h4, h5, h6⟩ := fin3_add
  have hw := (rweight_pos N k).le
  have q : ∀ a : ℂ, ((starRingEnd ℂ) a * a).re = a.re ^ 2 + a.im ^ 2 := fun a => by simp [mul_re]; ring
  simp only [q, ← Finset.mul_sum]
  refine mul_le_mul_of_nonneg_left ?_ hw
  simp only [Fin.sum_univ_three, curl, cross, Spec.deriv, h1, h2, h3, h4, h5, h6, mul_re, mul_im, sub_re, sub_im, I_re, I_im, ofReal_re, ofReal_im]
  nlinarith [sq_nonneg (scaledWaves N L 0 k * (E 0 k).re + scaledWaves N L 1 k * (E 1 k).re + scaledWaves N L 2 k * (E 2 k).re),
    sq_nonneg (scaledWaves N L 0 k * (E 0 k).im + scaledWaves N L 1 k * (E 1 k).im + scaledWaves N L 2 k * (E 2 k).im)]

end

/-! ## Truncation error of the vortex form -/

section
variable {L : Fin 3 → ℝ}

/-- Components of the curl of a function. -/
noncomputable def rot (u : Fin 3 → (Fin 3 → ℝ) → ℝ) (i : Fin 3) (x : Fin 3 → ℝ) : ℝ := pderiv (i + 1) (u (i + 2)) x - pderiv (i + 2) (u (i + 1)) x

/-- Difference of two cross products. -/
theorem cross_sub_le {V W a b : ℝ} (v w v' w' : Fin 3 → ℝ) (hv : ∀ i, |v i| ≤ V) (hw : ∀ i, |w' i| ≤ W) (ha : ∀ i, |v' i - v i| ≤ a) (hb : ∀ i, |w' i - w i| ≤ b)
    (i : Fin 3) : |cross v w i - cross v' w' i| ≤ 2 * (V * b + W * a) := by
  have ha0 : 0 ≤ a := (abs_nonneg _).trans (ha 0)
  have hV0 : 0 ≤ V := (abs_nonneg _).trans (hv 0)
  have q : ∀ i j, |v i * w j - v' i * w' j| ≤ V * b + W * a := fun i j => by
    have e : v i * w j - v' i * w' j = -(v i * (w' j - w j)) - w' j * (v' i - v i) := by ring
    rw [e]
    refine (abs_sub _ _).trans (add_le_add ?_ ?_)
    · rw [abs_neg, abs_mul]
      exact mul_le_mul (hv i) (hb j) (abs_nonneg _) hV0
    · rw [abs_mul]
      exact mul_le_mul (hw j) (ha i) (abs_nonneg _) ((abs_nonneg _).trans (hw 0))
  have e : cross v w i - cross v' w' i = (v (i + 1) * w (i + 2) - v' (i + 1) * w' (i + 2)) - (v (i + 2) * w (i + 1) - v' (i + 2) * w' (i + 1)) := by
    simp only [cross]
    ring
  rw [e]
  refine (abs_sub _ _).trans ?_
  linarith [q (i + 1) (i + 2), q (i + 2) (i + 1)]

/-- The vortex form of the truncated series against the truncated series of the vortex form, at every point. -/
theorem vortex_consistency (hL : ∀ i, 0 < L i) {T : ℝ} {u : ℝ → Fin 3 → (Fin 3 → ℝ) → ℝ} (hs : ∀ i, SmoothField fun t => u t i)
    (hp : ∀ t i, BoxPeriodic L (u t i)) (s : ℕ) :
    ∃ V G, 0 ≤ V ∧ 0 ≤ G ∧ ∀ (N : Fin 3 → ℕ), (∀ i, 0 < N i) → ∀ K : ℝ, 0 ≤ K → (∀ i, K ≤ Real.pi * N i / L i) → ∀ t ∈ Set.Icc 0 T,
      ∃ h : SArr 3 (RModes N), (∀ i x, |fn N L (proj N L (u t i)) x| ≤ V) ∧
        ∀ i x, |cross (fun j => fn N L (proj N L (u t j)) x) (fun j => fn N L (curl (scaledWaves N L) (fun i => proj N L (u t i)) j) x) i - fn N L (h i) x| ≤
          G * (1 / (1 + K ^ 2) ^ s) := by
  have hsp : ∀ t i, ContDiff ℝ ∞ (u t i) := fun t i => (hs i).space t
  have hsg : ∀ i j, SmoothField fun t => pderiv j (u t i) := fun i j => (hs i).pderiv j
  have hpg : ∀ t i j, BoxPeriodic L (pderiv j (u t i)) := fun t i j => (hp t i).pderiv j
  have hsr : ∀ i, SmoothField fun t => rot (u t) i := fun i => ContDiff.sub (hsg _ _) (hsg _ _)
  have hpr : ∀ t i, BoxPeriodic L (rot (u t) i) := fun t i j x => by simp only [rot, hpg t _ _ j x]
  have hsw : ∀ i, SmoothField fun t x => cross (fun j => u t j x) (fun j => rot (u t) j x) i := fun i =>
    ContDiff.sub (ContDiff.mul (hs _) (hsr _)) (ContDiff.mul (hs _) (hsr _))
  have hpw : ∀ t i, BoxPeriodic L fun x => cross (fun j => u t j x) (fun j => rot (u t) j x) i := fun t i j x => by
    simp only [cross, hp t _ j x, hpr t _ j x]
  obtain ⟨C0, hC0, c0⟩ := exists_common (P := fun (i : Fin 3) B => ∀ t ∈ Set.Icc 0 T, ∀ m,
      (1 + ∑ j, (kappa L m j) ^ 2) ^ (2 + 1) * ‖coef L (u t i) m‖ ≤ B)
    (fun i a b hab H t ht m => (H t ht m).trans hab) fun i => coef_decay hL (hs i) (fun t => hp t i) (2 + 1) T
  obtain ⟨C1, hC1, c1⟩ := exists_common (P := fun (i : Fin 3) B => ∀ t ∈ Set.Icc 0 T, ∀ m,
      (1 + ∑ j, (kappa L m j) ^ 2) ^ (2 + 1 + s) * ‖coef L (u t i) m‖ ≤ B)
    (fun i a b hab H t ht m => (H t ht m).trans hab) fun i => coef_decay hL (hs i) (fun t => hp t i) (2 + 1 + s) T
  obtain ⟨C2, hC2, c2⟩ := exists_common (P := fun (i : Fin 3) B => ∀ t ∈ Set.Icc 0 T, ∀ m,
      (1 + ∑ j, (kappa L m j) ^ 2) ^ (2 + 1 + s) * ‖coef L (rot (u t) i) m‖ ≤ B)
    (fun i a b hab H t ht m => (H t ht m).trans hab) fun i => coef_decay hL (hsr i) (fun t => hpr t i) (2 + 1 + s) T
  obtain ⟨C3, hC3, c3⟩ := exists_common (P := fun (i : Fin 3) B => ∀ t ∈ Set.Icc 0 T, ∀ m,
      (1 + ∑ j, (kappa L m j) ^ 2) ^ (2 + 1) * ‖coef L (rot (u t) i) m‖ ≤ B)
    (fun i a b hab H t ht m => (H t ht m).trans hab) fun i => coef_decay hL (hsr i) (fun t => hpr t i) (2 + 1) T
  obtain ⟨C4, hC4, c4⟩ := exists_common (P := fun (i : Fin 3) B => ∀ t ∈ Set.Icc 0 T, ∀ m,
      (1 + ∑ j, (kappa L m j) ^ 2) ^ (2 + 1 + s) * ‖coef L (fun x => cross (fun j => u t j x) (fun j => rot (u t) j x) i) m‖ ≤ B)
    (fun i a b hab H t ht m => (H t ht m).trans hab) fun i => coef_decay hL (hsw i) (fun t => hpw t i) (2 + 1 + s) T
  set M := ∑' m, majorant L m with hM
  have hM0 : 0 ≤ M := tsum_nonneg (majorant_nonneg L)
  refine ⟨2 * (C0 * M), 2 * ((2 * (C0 * M)) * (C2 * M) + (3 * (C3 * M)) * (C1 * M)) + C4 * M, by positivity, by positivity, fun N hN K hK hKN t ht => ?_⟩
  have hV : ∀ i x, |fn N L (proj N L (u t i)) x| ≤ 2 * (C0 * M) := fun i x => proj_bound N L hL (c0 i t ht) x
  obtain ⟨ka, hka⟩ : ∃ ka, ka = 1 / (1 + K ^ 2) ^ s := ⟨_, rfl⟩
  have e1 : ∀ c, c / (1 + K ^ 2) ^ s * M = c * M * ka := fun c => by rw [hka]; ring
  rw [← hka]
  have hcurl : ∀ x, (fun j => fn N L (curl (scaledWaves N L) (fun i => proj N L (u t i)) j) x) = fun j => fn N L (proj N L (rot (u t) j)) x := fun x => by
    funext j
    rw [fn_curl, pderiv_proj N L hL ((hsp t _).of_le (by exact_mod_cast le_top)) (hp t _), pderiv_proj N L hL ((hsp t _).of_le (by exact_mod_cast le_top)) (hp t _),
      ← fn_sub]
    congr 1
    funext k
    have hc : ∀ i j, Continuous (pderiv j (u t i)) := fun i j => ((hsg i j).space t).continuous
    have := coef_sub L (hc (j + 2) (j + 1)) (hc (j + 1) (j + 2))
    simp only [proj, rot]
    split_ifs
    · exact (this _).symm
    · rw [sub_zero]
  refine ⟨fun i => proj N L fun x => cross (fun j => u t j x) (fun j => rot (u t) j x) i, hV, fun i x => ?_⟩
  rw [hcurl]
  have hu := fun i => proj_sup N L hN hL (hsp t i).continuous (hp t i) (c1 i t ht) hK hKN x
  have hr := fun i => proj_sup N L hN hL ((hsr i).space t).continuous (hpr t i) (c2 i t ht) hK hKN x
  have hw := proj_sup N L hN hL ((hsw i).space t).continuous (hpw t i) (c4 i t ht) hK hKN x
  have hW : ∀ i, |rot (u t) i x| ≤ 3 * (C3 * M) := fun i => by
    have h1 := proj_sup N L hN hL ((hsr i).space t).continuous (hpr t i) (s := 0) (c3 i t ht) hK hKN x
    have h2 := proj_bound N L hL (c3 i t ht) x
    rw [pow_zero, div_one] at h1
    have h3 := abs_add_le (rot (u t) i x - fn N L (proj N L (rot (u t) i)) x) (fn N L (proj N L (rot (u t) i)) x)
    rw [sub_add_cancel] at h3
    linarith
  simp only [← hM, e1] at hu hr hw
  have h1 := cross_sub_le (fun j => fn N L (proj N L (u t j)) x) (fun j => fn N L (proj N L (rot (u t) j)) x) (fun j => u t j x) (fun j => rot (u t) j x)
    (fun i => hV i x) hW hu hr i
  refine (abs_sub_le _ (cross (fun j => u t j x) (fun j => rot (u t) j x) i) _).trans ((add_le_add h1 hw).trans_eq ?_)
  ring

/-- The work that aliasing does on the error, for two grids that resolve the modes. -/
theorem alias_work (hL : ∀ i, 0 < L i) {T nu : ℝ} (hnu : 0 < nu) {u : ℝ → Fin 3 → (Fin 3 → ℝ) → ℝ} (hs : ∀ i, SmoothField fun t => u t i)
    (hp : ∀ t i, BoxPeriodic L (u t i)) (s : ℕ) :
    ∃ α β, 0 ≤ α ∧ 0 ≤ β ∧ ∀ (N M M' : Fin 3 → ℕ), (∀ i, 0 < N i) → (∀ i, N i ≤ M i) → (∀ i, N i ≤ M' i) → ∀ K : ℝ, 0 ≤ K → (∀ i, K ≤ Real.pi * N i / L i) →
      ∀ t ∈ Set.Icc 0 T, ∀ U E : SArr 3 (RModes N), (E = fun i k => proj N L (u t i) k - U i k) → (∀ i, Unmasked N (E i)) → (∀ i, IsReal N (E i)) →
      ∀ (sc : Scratch 3 (RModes N) (Grid M)) (sc' : Scratch 3 (RModes N) (Grid M')) (rhs rhs' : SArr 3 (RModes N)),
      power (rweight N) E (convVortex sc' rhs' U (rspace N M') (scaledWaves N L)) - power (rweight N) E (convVortex sc rhs U (rspace N M) (scaledWaves N L)) ≤
        α * power (rweight N) E E + nu * boxMean L (fun x => ∑ i, ∑ j, pderiv j (fn N L (E i)) x ^ 2) + β * (1 / (1 + K ^ 2) ^ s) := by
  obtain ⟨V, G, hV, hG, H⟩ := vortex_consistency hL (T := T) hs hp s
  refine ⟨1 + 4 * V ^ 2 / nu, 3 * G ^ 2, by positivity, by positivity, fun N M M' hN hNM hNM' K hK hKN t ht U E hE hEm hEr sc sc' rhs rhs' => ?_⟩
  obtain ⟨h, h1, h2⟩ := H N hN K hK hKN t ht
  have w1 := vortex_work N L M hN hL hNM hnu (v := fun i => proj N L (u t i)) hE hEm hEr h1 h2 sc rhs
  have w2 := vortex_work N L M' hN hL hNM' hnu (v := fun i => proj N L (u t i)) hE hEm hEr h1 h2 sc' rhs'
  have hd := mul_le_mul_of_nonneg_left (curl_le_grad N L hN hL hEm hEr) hnu.le
  obtain ⟨ka, hka⟩ : ∃ ka, ka = 1 / (1 + K ^ 2) ^ s := ⟨_, rfl⟩
  have hka0 : 0 ≤ ka := by rw [hka]; positivity
  have hka1 : ka ≤ 1 := by
    rw [hka]
    exact div_le_one_of_le₀ (one_le_pow₀ (by nlinarith)) (by positivity)
  rw [← hka] at w1 w2 ⊢
  have hg : (G * ka) ^ 2 ≤ G ^ 2 * ka := by
    rw [mul_pow]
    exact mul_le_mul_of_nonneg_left (by nlinarith) (sq_nonneg _)
  have a1 := (abs_le.1 w1).1
  have a2 := (abs_le.1 w2).2
  have e : (1 + 4 * V ^ 2 / nu) * power (rweight N) E E = 2 * ((1 / 2 + 2 * V ^ 2 / nu) * power (rweight N) E E) := by ring
  rw [e]
  linarith

end

end SpectralDNS.Torus

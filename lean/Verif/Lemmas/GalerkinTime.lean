import Verif.Lemmas.GalerkinError

/-!
# Galerkin solutions follow classical solutions: the estimate in time
-/

namespace SpectralDNS.Torus

open Complex Spec Periodic Dealias MeasureTheory
open scoped ContDiff

variable {n : ℕ} {N : Fin (n + 1) → ℕ} {L : Fin (n + 1) → ℝ}

/-- Derivative of the squared norm of coefficients. -/
theorem power_self_hasDeriv {d : ℕ} {ι : Type*} [Fintype ι] (w : ι → ℝ) (E : ℝ → Fin d → ι → ℂ) (E' : Fin d → ι → ℂ) {s : Set ℝ} {t : ℝ}
    (h : ∀ i k, HasDerivWithinAt (fun s => E s i k) (E' i k) s t) :
    HasDerivWithinAt (fun s => power w (E s) (E s)) (2 * power w (E t) E') s t := by
  have e : ∀ a : ℂ, ((starRingEnd ℂ) a * a).re = ‖a‖ ^ 2 := fun a => by rw [← Complex.normSq_eq_conj_mul_self, ofReal_re, Complex.normSq_eq_norm_sq]
  simp only [power, e, Finset.mul_sum]
  refine HasDerivWithinAt.fun_sum fun i _ => HasDerivWithinAt.fun_sum fun k _ => ?_
  refine ((h i k).norm_sq.const_mul (w k)).congr_deriv ?_
  rw [Complex.inner]
  ring

/-- Mean square of the difference of a function from a Galerkin function, through the projection. -/
theorem mean_split (hN : ∀ i, 0 < N i) (hL : ∀ i, 0 < L i) {f : (Fin (n + 1) → ℝ) → ℝ} (hf : Continuous f) {v : RModes N → ℂ} (hv : Unmasked N v) :
    boxMean L (fun x => (f x - fn N L v x) ^ 2) = boxMean L (fun x => (f x - fn N L (proj N L f) x) ^ 2) +
      boxMean L (fun x => fn N L (fun k => proj N L f k - v k) x ^ 2) := by
  have hc : ∀ a, Continuous (fn N L a) := fun a => trigField_continuous _ _ _
  have ho := proj_orth N L hN hL hf (v := fun k => proj N L f k - v k) fun k hk => by simp only [proj_unmasked N L f k hk, hv k hk, sub_zero]
  have e : ∀ x, (f x - fn N L v x) ^ 2 = ((f x - fn N L (proj N L f) x) ^ 2 + fn N L (fun k => proj N L f k - v k) x ^ 2) +
      2 * ((f x - fn N L (proj N L f) x) * fn N L (fun k => proj N L f k - v k) x) := fun x => by rw [fn_sub]; ring
  have c1 := hf.sub (hc (proj N L f))
  have c2 := hc fun k => proj N L f k - v k
  simp only [e]
  rw [boxMean_add L (by fun_prop) (by fun_prop), boxMean_add L (by fun_prop) (by fun_prop), boxMean_const_mul, ho]
  ring

/-- Derivative of a coefficient of the projection. -/
theorem proj_hasDeriv (N : Fin (n + 1) → ℕ) (L : Fin (n + 1) → ℝ) {g : ℝ → (Fin (n + 1) → ℝ) → ℝ} (hg : SmoothField g) (k : RModes N) (t : ℝ) :
    HasDerivAt (fun s => proj N L (g s) k) (proj N L (fun x => _root_.deriv (fun s => g s x) t) k) t := by
  unfold proj
  split_ifs
  · exact coef_hasDeriv L hg _ t
  · exact hasDerivAt_const _ _

/-- A bound on a compact set of times and the box. -/
theorem smooth_bound {g : ℝ → (Fin (n + 1) → ℝ) → ℝ} (hg : SmoothField g) (T : ℝ) :
    ∃ B, 0 ≤ B ∧ ∀ t ∈ Set.Icc 0 T, ∀ x ∈ Set.Icc 0 L, |g t x| ≤ B := by
  obtain ⟨B, hB⟩ := ((isCompact_Icc (a := (0 : ℝ)) (b := T)).prod (isCompact_Icc (a := (0 : Fin (n + 1) → ℝ)) (b := L))).exists_bound_of_continuousOn
    (ContDiff.continuous hg).continuousOn
  exact ⟨max B 0, le_max_right _ _, fun t ht x hx => (hB (t, x) ⟨ht, hx⟩).trans (le_max_left _ _)⟩

theorem exists_common {J : Type*} [Fintype J] {P : J → ℝ → Prop} (hm : ∀ j a b, a ≤ b → P j a → P j b) (h : ∀ j, ∃ a, 0 ≤ a ∧ P j a) :
    ∃ a, 0 ≤ a ∧ ∀ j, P j a := by
  choose a h0 h1 using h
  exact ⟨∑ j, a j, Finset.sum_nonneg fun j _ => h0 j, fun j => hm j _ _ (Finset.single_le_sum (fun j _ => h0 j) (Finset.mem_univ j)) (h1 j)⟩

/-- Growth of quantities with `y' <= k y + e`. -/
theorem gronwall_le {y y' : ℝ → ℝ} {T k e : ℝ} (hk : 0 ≤ k) (he : 0 ≤ e) (hy0 : 0 ≤ y 0)
    (hd : ∀ t ∈ Set.Icc 0 T, HasDerivWithinAt y (y' t) (Set.Icc 0 T) t) (hb : ∀ t ∈ Set.Icc 0 T, y' t ≤ k * y t + e) :
    ∀ t ∈ Set.Icc 0 T, y t ≤ (y 0 + T * e) * Real.exp (k * T) := by
  intro t ht
  have hT : 0 ≤ T := ht.1.trans ht.2
  have h := le_gronwallBound_of_liminf_deriv_right_le (f := y) (f' := y') (δ := y 0) (K := k) (ε := e) (a := 0) (b := T)
    (fun t ht => (hd t ht).continuousWithinAt)
    (fun x hx r hr => by
      have h1 : HasDerivWithinAt y (y' x) (Set.Ici x) x :=
        ((hd x ⟨hx.1, hx.2.le⟩).mono (Set.Icc_subset_Icc_left hx.1)).mono_of_mem_nhdsWithin (Icc_mem_nhdsGE hx.2)
      exact (h1.Ioi_of_Ici.limsup_slope_le' (by simp) hr).frequently.mono fun z hz => by
        rwa [slope_def_field, div_eq_inv_mul] at hz)
    le_rfl (fun x hx => hb x ⟨hx.1, hx.2.le⟩) t ht
  refine h.trans ?_
  rw [sub_zero]
  have h1 : gronwallBound (y 0) k e t ≤ (y 0 + t * e) * Real.exp (k * t) := by
    rcases eq_or_lt_of_le hk with rfl | hk
    · simp [gronwallBound_K0]
      linarith
    · rw [gronwallBound_of_K_ne_0 hk.ne']
      have h2 : (Real.exp (k * t) - 1) / k ≤ t * Real.exp (k * t) := by
        rw [div_le_iff₀ hk]
        have := Real.add_one_le_exp (-(k * t))
        have h3 := Real.exp_pos (k * t)
        have h4 : Real.exp (k * t) * Real.exp (-(k * t)) = 1 := by rw [← Real.exp_add]; simp
        nlinarith
      have := mul_le_mul_of_nonneg_left h2 he
      have e1 : e / k * (Real.exp (k * t) - 1) = e * ((Real.exp (k * t) - 1) / k) := by ring
      simp only [e1]
      linarith
  refine h1.trans (mul_le_mul ?_ (Real.exp_le_exp.2 (mul_le_mul_of_nonneg_left ht.2 hk)) (Real.exp_pos _).le (by positivity))
  linarith [mul_le_mul_of_nonneg_right ht.2 he]

/-- Work of the time derivative of the error. -/
theorem power_error (hL : ∀ i, 0 < L i) (E : SArr (n + 1) (RModes N)) (hE : ∀ i, Unmasked N (E i)) {g : Fin (n + 1) → (Fin (n + 1) → ℝ) → ℝ}
    (hg : ∀ i, Continuous (g i)) (V : SArr (n + 1) (RModes N)) : power (rweight N) E (fun i k => proj N L (g i) k - V i k) =
      boxMean L (fun x => ∑ i, g i x * fn N L (E i) x) - power (rweight N) E V := by
  have hfn : ∀ a, Continuous (fn N L a) := fun a => trigField_continuous _ _ _
  rw [boxMean_sum L _ fun i => (hg i).fun_mul (hfn (E i))]
  simp only [power_inner, Periodic.inner_sub_right, Finset.sum_sub_distrib]
  congr 1
  exact Finset.sum_congr rfl fun i _ => by rw [mean_fn N L hL (hg i) (hE i), inner_symm]

/-- Semi-discrete solutions whose right-hand side does the work of the Navier-Stokes equations on the error, up to a defect that the diffusion, the error
itself and the mesh bound, follow smooth solutions: the mean square error is bounded, up to a constant independent of the mesh, by the error of the start,
the error of the force and any power of the mesh size. -/
theorem galerkin_defect (hL : ∀ i, 0 < L i) {nu T : ℝ} {f : Fin (n + 1) → (Fin (n + 1) → ℝ) → ℝ}
    {u : ℝ → Fin (n + 1) → (Fin (n + 1) → ℝ) → ℝ} {p : ℝ → (Fin (n + 1) → ℝ) → ℝ} (h : ClassicalNS L nu T f u p) (s : ℕ) {α β : ℝ} (hα : 0 ≤ α) (hβ : 0 ≤ β) :
    ∃ C, 0 ≤ C ∧ ∀ (N : Fin (n + 1) → ℕ), (∀ i, 0 < N i) → ∀ K : ℝ, 0 ≤ K → (∀ i, K ≤ Real.pi * N i / L i) →
      ∀ (S : SArr (n + 1) (RModes N)) (U U' : ℝ → SArr (n + 1) (RModes N)),
      (∀ t ∈ Set.Icc 0 T, ∀ i k, HasDerivWithinAt (fun s => U s i k) (U' t i k) (Set.Icc 0 T) t) →
      (∀ t ∈ Set.Icc 0 T, Solenoidal (scaledWaves N L) (U t) ∧ (∀ i, Unmasked N (U t i)) ∧ ∀ i, IsReal N (U t i)) →
      (∀ t ∈ Set.Icc 0 T, ∀ E : SArr (n + 1) (RModes N), (E = fun i k => proj N L (u t i) k - U t i k) → (∀ i, Unmasked N (E i)) → (∀ i, IsReal N (E i)) →
        ∃ P, momentumWork L nu (fun i => fn N L (U t i)) (fun i => fn N L (S i)) (fun i => fn N L (E i)) (fn N L P) - power (rweight N) E (U' t) ≤
          α * power (rweight N) E E + nu * boxMean L (fun x => ∑ i, ∑ j, pderiv j (fn N L (E i)) x ^ 2) + β * (1 / (1 + K ^ 2) ^ s)) →
      ∀ t ∈ Set.Icc 0 T, boxMean L (fun x => ∑ i, (u t i x - fn N L (U t i) x) ^ 2) ≤
        C * (boxMean L (fun x => ∑ i, (u 0 i x - fn N L (U 0 i) x) ^ 2) + boxMean L (fun x => ∑ i, (f i x - fn N L (S i) x) ^ 2) +
          1 / (1 + K ^ 2) ^ s) := by
  have hsp : ∀ t i, ContDiff ℝ ∞ (u t i) := fun t i => (h.smooth i).space t
  have hsg : ∀ i j, SmoothField fun t => pderiv j (u t i) := fun i j => (h.smooth i).pderiv j
  have hcg : ∀ t i j, Continuous (pderiv j (u t i)) := fun t i j => ((hsg i j).space t).continuous
  have hpg : ∀ t i j, BoxPeriodic L (pderiv j (u t i)) := fun t i j => (h.periodic t i).pderiv j
  obtain ⟨B1, hB1, b1⟩ := exists_common (P := fun i B => ∀ t ∈ Set.Icc 0 T, ∀ x ∈ Set.Icc 0 L, |u t i x| ≤ B)
    (fun i a b hab H t ht x hx => (H t ht x hx).trans hab) fun i => smooth_bound (h.smooth i) T
  obtain ⟨B2, hB2, b2⟩ := exists_common (P := fun (q : Fin (n + 1) × Fin (n + 1)) B => ∀ t ∈ Set.Icc 0 T, ∀ x ∈ Set.Icc 0 L, |pderiv q.2 (u t q.1) x| ≤ B)
    (fun i a b hab H t ht x hx => (H t ht x hx).trans hab) fun q => smooth_bound (hsg q.1 q.2) T
  obtain ⟨C0, hC0, c0⟩ := exists_common (P := fun (q : Fin (n + 1) × Fin (n + 1)) B => ∀ t ∈ Set.Icc 0 T, ∀ m,
      (1 + ∑ j, (kappa L m j) ^ 2) ^ (n + 1) * ‖coef L (pderiv q.2 (u t q.1)) m‖ ≤ B)
    (fun i a b hab H t ht m => (H t ht m).trans hab) fun q => coef_decay hL (hsg q.1 q.2) (fun t => hpg t q.1 q.2) (n + 1) T
  obtain ⟨C1, hC1, c1⟩ := exists_common (P := fun (i : Fin (n + 1)) B => ∀ t ∈ Set.Icc 0 T, ∀ m,
      (1 + ∑ j, (kappa L m j) ^ 2) ^ (n + 1 + s) * ‖coef L (u t i) m‖ ≤ B)
    (fun i a b hab H t ht m => (H t ht m).trans hab) fun i => coef_decay hL (h.smooth i) (fun t => h.periodic t i) (n + 1 + s) T
  obtain ⟨C2, hC2, c2⟩ := exists_common (P := fun (q : Fin (n + 1) × Fin (n + 1)) B => ∀ t ∈ Set.Icc 0 T, ∀ m,
      (1 + ∑ j, (kappa L m j) ^ 2) ^ (n + 1 + s) * ‖coef L (pderiv q.2 (u t q.1)) m‖ ≤ B)
    (fun i a b hab H t ht m => (H t ht m).trans hab) fun q => coef_decay hL (hsg q.1 q.2) (fun t => hpg t q.1 q.2) (n + 1 + s) T
  set M := ∑' m, majorant L m with hM
  have hM0 : 0 ≤ M := tsum_nonneg (majorant_nonneg L)
  set D : ℝ := ((n + 1 : ℕ) : ℝ) with hD
  have hD0 : 0 ≤ D := Nat.cast_nonneg _
  obtain ⟨A, hA⟩ : ∃ A, A = B1 + B2 + B2 + 2 * (C0 * M) := ⟨_, rfl⟩
  have hCM : 0 ≤ C0 * M := mul_nonneg hC0 hM0
  have hA0 : 0 ≤ A := by linarith
  obtain ⟨k, hk⟩ : ∃ k, k = 8 * D * A + 1 + 2 * α := ⟨_, rfl⟩
  have hk0 : 0 ≤ k := by rw [hk]; positivity
  obtain ⟨Q, hQ⟩ : ∃ Q, Q = 2 * A * (D * (D * (C1 * M) ^ 2) + D * (D * (C2 * M) ^ 2)) + 2 * β := ⟨_, rfl⟩
  have hQ0 : 0 ≤ Q := by rw [hQ]; positivity
  obtain ⟨X, hX⟩ : ∃ X, X = Real.exp (k * T) := ⟨_, rfl⟩
  have hX0 : 0 ≤ X := by rw [hX]; exact (Real.exp_pos _).le
  refine ⟨D * (C1 * M) ^ 2 + X * (1 + |T| * Q + |T|), by positivity, fun N hN K hK hKN S U U' hU hadm hweak t ht => ?_⟩
  have hT : 0 ≤ T := ht.1.trans ht.2
  have h0 : (0 : ℝ) ∈ Set.Icc 0 T := ⟨le_rfl, hT⟩
  have hfn : ∀ a, Continuous (fn N L a) := fun a => trigField_continuous _ _ _
  obtain ⟨ka, hka⟩ : ∃ ka, ka = 1 / (1 + K ^ 2) ^ s := ⟨_, rfl⟩
  have hka0 : 0 ≤ ka := by rw [hka]; positivity
  have hka1 : ka ≤ 1 := by
    rw [hka]
    exact div_le_one_of_le₀ (one_le_pow₀ (by nlinarith)) (by positivity)
  have hsq : ∀ c, (c / (1 + K ^ 2) ^ s * M) ^ 2 ≤ (c * M) ^ 2 * ka := fun c => by
    have e : c / (1 + K ^ 2) ^ s * M = c * M * ka := by rw [hka]; ring
    rw [e, mul_pow]
    exact mul_le_mul_of_nonneg_left (by nlinarith) (sq_nonneg _)
  obtain ⟨F, hF⟩ : ∃ F, F = boxMean L (fun x => ∑ i, (f i x - fn N L (S i) x) ^ 2) := ⟨_, rfl⟩
  have hF0 : 0 ≤ F := by rw [hF]; exact boxMean_nonneg hL fun x _ => Finset.sum_nonneg fun i _ => sq_nonneg _
  -- the projection
  have r1 : ∀ t ∈ Set.Icc 0 T, boxMean L (fun x => ∑ i, (u t i x - fn N L (proj N L (u t i)) x) ^ 2) ≤ D * (C1 * M) ^ 2 * ka := fun t ht => by
    rw [boxMean_sum L _ fun i => ((hsp t i).continuous.fun_sub (hfn _)).fun_pow 2]
    refine (Finset.sum_le_sum fun i _ => (proj_error N L hN hL (hsp t i).continuous (h.periodic t i) (c1 i t ht) hK hKN).trans (hsq C1)).trans_eq ?_
    simp [hD]
    ring
  have r2 : ∀ t ∈ Set.Icc 0 T, boxMean L (fun x => ∑ i, ∑ j, (pderiv j (u t i) x - fn N L (proj N L (pderiv j (u t i))) x) ^ 2) ≤
      D * (D * (C2 * M) ^ 2) * ka := fun t ht => by
    rw [boxMean_sum L _ fun i => continuous_finsetSum _ fun j _ => ((hcg t i j).fun_sub (hfn _)).fun_pow 2]
    refine (Finset.sum_le_sum fun i _ => ?_).trans_eq (b := ∑ _i : Fin (n + 1), D * (C2 * M) ^ 2 * ka) ?_
    · rw [boxMean_sum L _ fun j => ((hcg t i j).fun_sub (hfn _)).fun_pow 2]
      refine (Finset.sum_le_sum fun j _ => (proj_error N L hN hL (hcg t i j) (hpg t i j) (c2 (i, j) t ht) hK hKN).trans (hsq C2)).trans_eq ?_
      simp [hD]
      ring
    · simp [hD]
      ring
  -- the error within the Galerkin space
  let E : ℝ → SArr (n + 1) (RModes N) := fun t i k => proj N L (u t i) k - U t i k
  have hEm : ∀ t ∈ Set.Icc 0 T, ∀ i, Unmasked N (E t i) := fun t ht i k hk => by
    simp only [E, proj_unmasked N L (u t i) k hk, (hadm t ht).2.1 i k hk, sub_zero]
  have hEr : ∀ t ∈ Set.Icc 0 T, ∀ i, IsReal N (E t i) := fun t ht i k k' hk => by
    simp only [E, proj_real N L (u t i) k k' hk, (hadm t ht).2.2 i k k' hk, map_sub]
  have hy : ∀ t ∈ Set.Icc 0 T, boxMean L (fun x => ∑ i, fn N L (E t i) x ^ 2) = power (rweight N) (E t) (E t) := fun t ht => by
    rw [← mean_power N L hN hL (E t) (E t) (hEm t ht) (hEm t ht) (hEr t ht)]
    simp only [sq]
  have hsplit : ∀ t ∈ Set.Icc 0 T, boxMean L (fun x => ∑ i, (u t i x - fn N L (U t i) x) ^ 2) =
      boxMean L (fun x => ∑ i, (u t i x - fn N L (proj N L (u t i)) x) ^ 2) + power (rweight N) (E t) (E t) := fun t ht => by
    rw [← hy t ht, boxMean_sum L _ fun i => ((hsp t i).continuous.fun_sub (hfn _)).fun_pow 2, boxMean_sum L _ fun i => ((hsp t i).continuous.fun_sub (hfn _)).fun_pow 2,
      boxMean_sum L _ fun i => (hfn _).fun_pow 2, ← Finset.sum_add_distrib]
    exact Finset.sum_congr rfl fun i _ => mean_split hN hL (hsp t i).continuous ((hadm t ht).2.1 i)
  have hder : ∀ t ∈ Set.Icc 0 T, HasDerivWithinAt (fun s => power (rweight N) (E s) (E s))
      (2 * power (rweight N) (E t) fun i k => proj N L (fun x => _root_.deriv (fun s => u s i x) t) k - U' t i k) (Set.Icc 0 T) t := fun t ht =>
    power_self_hasDeriv _ E _ fun i k => (proj_hasDeriv N L (h.smooth i) k t).hasDerivWithinAt.sub (hU t ht i k)
  have hrate : ∀ t ∈ Set.Icc 0 T, (2 * power (rweight N) (E t) fun i k => proj N L (fun x => _root_.deriv (fun s => u s i x) t) k - U' t i k) ≤
      k * power (rweight N) (E t) (E t) + (Q * ka + F) := fun t ht => by
    obtain ⟨P, hP⟩ := hweak t ht (E t) rfl (hEm t ht) (hEr t ht)
    rw [power_error hL (E t) (hEm t ht) (fun i => ((h.smooth i).deriv.space t).continuous) (U' t)]
    rw [← hka] at hP
    simp only [h.momentum t ht]
    have key := error_work_diss hN hL (nu := nu) hA0 (hsp t) (h.periodic t) (h.divergence t ht) (h.smooth_p t) (h.periodic_p t) h.continuous_f (U t) S
      (hadm t ht).1 (hadm t ht).2.1 P (fun i x hx => (b1 i t ht x hx).trans (by linarith)) (fun i j x hx => (b2 (i, j) t ht x hx).trans (by linarith))
      (fun i j x hx => by
        have h1 := b2 (i, j) t ht x hx
        have h2 := proj_bound N L hL (c0 (i, j) t ht) x
        refine (abs_sub _ _).trans ?_
        linarith)
    change boxMean L (fun x => ∑ i, _ * fn N L (E t i) x) - momentumWork L nu _ _ (fun i => fn N L (E t i)) _ ≤
      (4 * D * A + 1 / 2) * boxMean L (fun x => ∑ i, fn N L (E t i) x ^ 2) + A * (D * _ + _) + 1 / 2 * _ - nu * boxMean L (fun x => ∑ i, ∑ j, pderiv j (fn N L (E t i)) x ^ 2) at key
    rw [hy t ht, ← hF] at key
    have e1 := mul_le_mul_of_nonneg_left (r1 t ht) hD0
    have e2 := mul_le_mul_of_nonneg_left (add_le_add e1 (r2 t ht)) hA0
    rw [hk, hQ]
    linarith
  have hfin := gronwall_le hk0 (by positivity) (power_self_nonneg (rweight_pos N) (E 0)) hder hrate t ht
  rw [← hX] at hfin
  rw [hsplit t ht, ← hF, ← hka, abs_of_nonneg hT]
  have y0 : power (rweight N) (E 0) (E 0) ≤ boxMean L (fun x => ∑ i, (u 0 i x - fn N L (U 0 i) x) ^ 2) := by
    rw [hsplit 0 h0]
    exact le_add_of_nonneg_left (boxMean_nonneg hL fun x _ => Finset.sum_nonneg fun i _ => sq_nonneg _)
  have r := r1 t ht
  obtain ⟨a, ha⟩ : ∃ a, a = boxMean L (fun x => ∑ i, (u 0 i x - fn N L (U 0 i) x) ^ 2) := ⟨_, rfl⟩
  rw [← ha] at y0 ⊢
  have ha0 : 0 ≤ a := (power_self_nonneg (rweight_pos N) (E 0)).trans y0
  have g1 := mul_le_mul_of_nonneg_right y0 hX0
  have p1 : 0 ≤ D * (C1 * M) ^ 2 := by positivity
  have p2 : 0 ≤ D * (C1 * M) ^ 2 * (a + F) := by positivity
  have p3 : 0 ≤ X * (T * Q + T) * a := by positivity
  have p4 : 0 ≤ X * (1 + T * Q) * F := by positivity
  have p5 : 0 ≤ X * (1 + T) * ka := by positivity
  nlinarith

/-- Semi-discrete solutions whose right-hand side does the work of the Navier-Stokes equations follow smooth solutions: the mean square error is
bounded, up to a constant independent of the mesh, by the error of the start, the error of the force and any power of the mesh size. -/
theorem galerkin_error (hL : ∀ i, 0 < L i) {nu T : ℝ} (hnu : 0 ≤ nu) {f : Fin (n + 1) → (Fin (n + 1) → ℝ) → ℝ}
    {u : ℝ → Fin (n + 1) → (Fin (n + 1) → ℝ) → ℝ} {p : ℝ → (Fin (n + 1) → ℝ) → ℝ} (h : ClassicalNS L nu T f u p) (s : ℕ) :
    ∃ C, 0 ≤ C ∧ ∀ (N : Fin (n + 1) → ℕ), (∀ i, 0 < N i) → ∀ K : ℝ, 0 ≤ K → (∀ i, K ≤ Real.pi * N i / L i) →
      ∀ (S : SArr (n + 1) (RModes N)) (U U' : ℝ → SArr (n + 1) (RModes N)),
      (∀ t ∈ Set.Icc 0 T, ∀ i k, HasDerivWithinAt (fun s => U s i k) (U' t i k) (Set.Icc 0 T) t) →
      (∀ t ∈ Set.Icc 0 T, Solenoidal (scaledWaves N L) (U t) ∧ (∀ i, Unmasked N (U t i)) ∧ ∀ i, IsReal N (U t i)) →
      (∀ t ∈ Set.Icc 0 T, ∃ P, ∀ v : SArr (n + 1) (RModes N), (∀ i, Unmasked N (v i)) → (∀ i, IsReal N (v i)) → power (rweight N) v (U' t) =
        momentumWork L nu (fun i => fn N L (U t i)) (fun i => fn N L (S i)) (fun i => fn N L (v i)) (fn N L P)) →
      ∀ t ∈ Set.Icc 0 T, boxMean L (fun x => ∑ i, (u t i x - fn N L (U t i) x) ^ 2) ≤
        C * (boxMean L (fun x => ∑ i, (u 0 i x - fn N L (U 0 i) x) ^ 2) + boxMean L (fun x => ∑ i, (f i x - fn N L (S i) x) ^ 2) +
          1 / (1 + K ^ 2) ^ s) := by
  obtain ⟨C, hC, H⟩ := galerkin_defect hL h s le_rfl le_rfl
  refine ⟨C, hC, fun N hN K hK hKN S U U' hU hadm hweak => H N hN K hK hKN S U U' hU hadm fun t ht E _ hEm hEr => ?_⟩
  obtain ⟨P, hP⟩ := hweak t ht
  refine ⟨P, ?_⟩
  rw [hP E hEm hEr, sub_self, zero_mul, zero_mul, zero_add, add_zero]
  exact mul_nonneg hnu (boxMean_nonneg hL fun x _ => Finset.sum_nonneg fun i _ => Finset.sum_nonneg fun j _ => sq_nonneg _)

end SpectralDNS.Torus

import Verif.Lemmas.CoupledError

/-!
# Galerkin solutions of coupled equations follow classical solutions
-/

namespace SpectralDNS.Torus

open Complex Spec Periodic Dealias MeasureTheory
open scoped ContDiff

variable {n : ℕ} {N : Fin (n + 1) → ℕ} {L : Fin (n + 1) → ℝ}

/-- Mean squares of the rest of the projection and of the error of a vector. -/
noncomputable def rsq (N : Fin (n + 1) → ℕ) (L : Fin (n + 1) → ℝ) (u : Fin (n + 1) → (Fin (n + 1) → ℝ) → ℝ) : ℝ :=
  boxMean L fun x => ∑ j, (u j x - fn N L (proj N L (u j)) x) ^ 2

noncomputable def esq (N : Fin (n + 1) → ℕ) (L : Fin (n + 1) → ℝ) (u : Fin (n + 1) → (Fin (n + 1) → ℝ) → ℝ) (U : SArr (n + 1) (RModes N)) : ℝ :=
  boxMean L fun x => ∑ j, fn N L (err N L (u j) (U j)) x ^ 2

theorem sqs_eq (u : Fin (n + 1) → (Fin (n + 1) → ℝ) → ℝ) (U : SArr (n + 1) (RModes N)) : sqs N L u U = rsq N L u + esq N L u U := rfl

theorem sum_cnv_error (hL : ∀ i, 0 < L i) {A : ℝ} (hA : 0 ≤ A) {u w : Fin (n + 1) → (Fin (n + 1) → ℝ) → ℝ} (hu : ∀ i, Bounded N L A (u i))
    (hw : ∀ i, Bounded N L A (w i)) (U W Z : SArr (n + 1) (RModes N)) :
    ∑ i, (cnv L u (w i) (fn N L (Z i)) - cnv L (fns N L U) (fn N L (W i)) (fn N L (Z i))) ≤
      ∑ i, cnv L (fns N L U) (fn N L (err N L (w i) (W i))) (fn N L (Z i)) +
      A * (((n + 1 : ℕ) : ℝ) * sqs N L u U + (∑ i, gsq N L (w i)) + 3 * ((n + 1 : ℕ) : ℝ) * boxMean L (fun x => ∑ i, fn N L (Z i) x ^ 2)) := by
  have h4 := Finset.sum_le_sum fun i (_ : i ∈ Finset.univ) => (le_abs_self _).trans (cnv_error hL hA hu (hw i) U (W i) (Z i))
  rw [Finset.sum_sub_distrib, ← Finset.mul_sum, Finset.sum_add_distrib, Finset.sum_add_distrib, ← Finset.mul_sum,
    ← sum_means fun i => (fn_cont (Z i)).fun_pow 2] at h4
  simp only [Finset.sum_const, Finset.card_univ, Fintype.card_fin, nsmul_eq_mul] at h4
  linarith

/-- Work of the equations of magnetohydrodynamics on the error. -/
theorem mhd_work (hN : ∀ i, 0 < N i) (hL : ∀ i, 0 < L i) {nu eta A : ℝ} (hnu : 0 ≤ nu) (heta : 0 ≤ eta) (hA : 0 ≤ A)
    {u b : Fin (n + 1) → (Fin (n + 1) → ℝ) → ℝ} (hu : ∀ i, Bounded N L A (u i)) (hb : ∀ i, Bounded N L A (b i))
    (du : ∀ x, ∑ i, pderiv i (u i) x = 0) (db : ∀ x, ∑ i, pderiv i (b i) x = 0) {p : (Fin (n + 1) → ℝ) → ℝ} (hp : ContDiff ℝ 1 p) (pp : BoxPeriodic L p)
    {U B : SArr (n + 1) (RModes N)} (hU : Solenoidal (scaledWaves N L) U) (hB : Solenoidal (scaledWaves N L) B) (hm : ∀ i, Unmasked N (U i))
    (hmb : ∀ i, Unmasked N (B i)) (P : RModes N → ℂ) :
    boxMean L (fun x => ∑ i, (-(∑ j, u j x * pderiv j (u i) x) + (∑ j, b j x * pderiv j (b i) x) - pderiv i p x + nu * ∑ j, pderiv j (pderiv j (u i)) x) *
        fn N L (err N L (u i) (U i)) x) -
      momentumWork L nu (fns N L U) (fun i x => ∑ j, fn N L (B j) x * pderiv j (fn N L (B i)) x) (fns N L fun i => err N L (u i) (U i)) (fn N L P) +
    (boxMean L (fun x => ∑ i, ((∑ j, b j x * pderiv j (u i) x) - (∑ j, u j x * pderiv j (b i) x) + eta * ∑ j, pderiv j (pderiv j (b i)) x) *
        fn N L (err N L (b i) (B i)) x) - inductionWork L eta (fns N L U) (fns N L B) (fns N L fun i => err N L (b i) (B i))) ≤
    A * (((n + 1 : ℕ) : ℝ) * (2 * (rsq N L u + rsq N L b)) + 2 * ((∑ i, gsq N L (u i)) + ∑ i, gsq N L (b i)) +
      8 * ((n + 1 : ℕ) : ℝ) * (esq N L u U + esq N L b B)) := by
  have cu : ∀ i, Continuous (u i) := fun i => (hu i).smooth.continuous
  have cb : ∀ i, Continuous (b i) := fun i => (hb i).smooth.continuous
  have cdu : ∀ i j, Continuous (pderiv j (u i)) := fun i j => (smooth_pderiv (hu i).smooth j).continuous
  have cdb : ∀ i j, Continuous (pderiv j (b i)) := fun i j => (smooth_pderiv (hb i).smooth j).continuous
  have clb : ∀ i j, Continuous (pderiv j (pderiv j (b i))) := fun i j => (smooth_pderiv (smooth_pderiv (hb i).smooth j) j).continuous
  have h1 := momentum_error hN hL hnu hA hu du hp pp (f := fun i x => ∑ j, b j x * pderiv j (b i) x)
    (g := fun i x => ∑ j, fn N L (B j) x * pderiv j (fn N L (B i)) x) (fun i => continuous_finsetSum _ fun j _ => (cb j).mul (cdb i j))
    (fun i => continuous_finsetSum _ fun j _ => (fn_cont (B j)).mul (dfn_cont (B i) j)) hU hm P
  have h2 := sum_cnv_error hL hA hb hb B B fun i => err N L (u i) (U i)
  have h3 := sum_cnv_error hL hA hb hu B U fun i => err N L (b i) (B i)
  have h4 := Finset.sum_le_sum fun i (_ : i ∈ Finset.univ) => scalar_error hN hL heta hA hu (hb i) hU (hmb i)
  have h5 : ∑ i, cnv L (fns N L B) (fn N L (err N L (b i) (B i))) (fn N L (err N L (u i) (U i))) +
      ∑ i, cnv L (fns N L B) (fn N L (err N L (u i) (U i))) (fn N L (err N L (b i) (B i))) = 0 := by
    rw [← Finset.sum_add_distrib]
    exact Finset.sum_eq_zero fun i _ => cnv_skew hL hB _ _
  have hE : esq N L u U = boxMean L (fun x => ∑ i, fn N L (err N L (u i) (U i)) x ^ 2) := rfl
  have hEb : esq N L b B = boxMean L (fun x => ∑ i, fn N L (err N L (b i) (B i)) x ^ 2) := rfl
  rw [← hE] at h1 h2
  rw [← hEb] at h3
  rw [Finset.sum_sub_distrib, ← Finset.mul_sum, Finset.sum_add_distrib, Finset.sum_add_distrib, ← Finset.mul_sum,
    ← sum_means fun i => (fn_cont (err N L (b i) (B i))).fun_pow 2, ← hEb] at h4
  simp only [Finset.sum_const, Finset.card_univ, Fintype.card_fin, nsmul_eq_mul] at h4
  have e1 : boxMean L (fun x => ∑ i, ((∑ j, b j x * pderiv j (u i) x) - (∑ j, u j x * pderiv j (b i) x) + eta * ∑ j, pderiv j (pderiv j (b i)) x) *
      fn N L (err N L (b i) (B i)) x) = (∑ i, cnv L b (u i) (fn N L (err N L (b i) (B i)))) +
      ∑ i, boxMean L (fun x => (-(∑ j, u j x * pderiv j (b i) x) + eta * ∑ j, pderiv j (pderiv j (b i)) x) * fn N L (err N L (b i) (B i)) x) := by
    have k1 : ∀ i, Continuous fun x => (∑ j, b j x * pderiv j (u i) x) * fn N L (err N L (b i) (B i)) x := fun i => cnv_cont cb (cdu i) (fn_cont _)
    have k2 : ∀ i, Continuous fun x => (-(∑ j, u j x * pderiv j (b i) x) + eta * ∑ j, pderiv j (pderiv j (b i)) x) * fn N L (err N L (b i) (B i)) x :=
      fun i => ((continuous_finsetSum _ fun j _ => (cu j).mul (cdb i j)).neg.add (continuous_const.mul (continuous_finsetSum _ fun j _ => clb i j))).mul
        (fn_cont _)
    simp only [cnv]
    rw [← sum_means k1, ← sum_means k2, ← boxMean_add L (continuous_finsetSum _ fun i _ => k1 i) (continuous_finsetSum _ fun i _ => k2 i)]
    refine congrArg _ (funext fun x => ?_)
    rw [← Finset.sum_add_distrib]
    exact Finset.sum_congr rfl fun i _ => by ring
  have e2 : boxMean L (fun x => ∑ i, (-(∑ j, u j x * pderiv j (u i) x) + (∑ j, b j x * pderiv j (b i) x) - pderiv i p x +
      nu * ∑ j, pderiv j (pderiv j (u i)) x) * fn N L (err N L (u i) (U i)) x) =
      boxMean L (fun x => ∑ i, (-(∑ j, u j x * pderiv j (u i) x) - pderiv i p x + nu * (∑ j, pderiv j (pderiv j (u i)) x) +
        ∑ j, b j x * pderiv j (b i) x) * fn N L (err N L (u i) (U i)) x) :=
    congrArg _ (funext fun x => Finset.sum_congr rfl fun i _ => by ring)
  change _ ≤ _ + ∑ i, (cnv L b (b i) (fn N L (err N L (u i) (U i))) - cnv L (fns N L B) (fn N L (B i)) (fn N L (err N L (u i) (U i)))) at h1
  rw [Finset.sum_sub_distrib] at h3
  rw [e1, e2, induction_split, Finset.sum_add_distrib]
  rw [sqs_eq] at h1 h2 h3 h4
  change _ ≤ _ + A * (_ + _ + 3 * _ * esq N L b B) at h3
  nlinarith

/-- The squared errors of a vector through the projection. -/
theorem total_split (hN : ∀ i, 0 < N i) (hL : ∀ i, 0 < L i) {u : Fin (n + 1) → (Fin (n + 1) → ℝ) → ℝ} (hu : ∀ i, Continuous (u i))
    {U : SArr (n + 1) (RModes N)} (hm : ∀ i, Unmasked N (U i)) :
    boxMean L (fun x => ∑ i, (u i x - fn N L (U i) x) ^ 2) = rsq N L u + esq N L u U := by
  rw [rsq, esq, sum_means fun i => ((hu i).fun_sub (fn_cont _)).fun_pow 2, sum_means fun i => ((hu i).fun_sub (fn_cont _)).fun_pow 2,
    sum_means fun i => (fn_cont _).fun_pow 2, ← Finset.sum_add_distrib]
  exact Finset.sum_congr rfl fun i _ => mean_split hN hL (hu i) (hm i)

theorem esq_power (hN : ∀ i, 0 < N i) (hL : ∀ i, 0 < L i) {u : Fin (n + 1) → (Fin (n + 1) → ℝ) → ℝ} {U : SArr (n + 1) (RModes N)} (hm : ∀ i, Unmasked N (U i))
    (hr : ∀ i, IsReal N (U i)) : esq N L u U = power (rweight N) (fun i => err N L (u i) (U i)) (fun i => err N L (u i) (U i)) := by
  rw [← mean_power N L hN hL _ _ (fun i => err_unmasked (u i) (hm i)) (fun i => err_unmasked (u i) (hm i)) fun i => err_real (u i) (hr i), esq]
  simp only [sq]

theorem rsq_le {T : ℝ} {s : ℕ} {u : ℝ → Fin (n + 1) → (Fin (n + 1) → ℝ) → ℝ} {B : ℝ} (h : ∀ i, FieldBound L T s (fun t => u t i) B) {t : ℝ}
    (ht : t ∈ Set.Icc 0 T) (hN : ∀ i, 0 < N i) {K : ℝ} (hK : 0 ≤ K) (hKN : ∀ i, K ≤ Real.pi * N i / L i) :
    rsq N L (u t) ≤ ((n + 1 : ℕ) : ℝ) * B * (1 / (1 + K ^ 2) ^ s) ∧ ∑ i, gsq N L (u t i) ≤ ((n + 1 : ℕ) : ℝ) * B * (1 / (1 + K ^ 2) ^ s) := by
  have hb := fun i => h i t ht N hN
  constructor
  · rw [rsq, sum_means fun i => ((hb i).1.smooth.continuous.fun_sub (fn_cont _)).fun_pow 2]
    refine (Finset.sum_le_sum fun i _ => ((hb i).2 K hK hKN).1).trans_eq ?_
    simp only [Finset.sum_const, Finset.card_univ, Fintype.card_fin, nsmul_eq_mul]
    ring
  · refine (Finset.sum_le_sum fun i _ => ((hb i).2 K hK hKN).2).trans_eq ?_
    simp only [Finset.sum_const, Finset.card_univ, Fintype.card_fin, nsmul_eq_mul]
    ring

theorem rsq_nonneg (hL : ∀ i, 0 < L i) (u : Fin (n + 1) → (Fin (n + 1) → ℝ) → ℝ) : 0 ≤ rsq N L u :=
  boxMean_nonneg hL fun _ _ => Finset.sum_nonneg fun _ _ => sq_nonneg _

theorem esq_nonneg (hL : ∀ i, 0 < L i) (u : Fin (n + 1) → (Fin (n + 1) → ℝ) → ℝ) (U : SArr (n + 1) (RModes N)) : 0 ≤ esq N L u U :=
  boxMean_nonneg hL fun _ _ => Finset.sum_nonneg fun _ _ => sq_nonneg _

/-- Semi-discrete solutions whose right-hand side does the work of the equations of magnetohydrodynamics follow smooth solutions. -/
theorem mhd_error (hL : ∀ i, 0 < L i) {nu eta T : ℝ} (hnu : 0 ≤ nu) (heta : 0 ≤ eta) {u b : ℝ → Fin (n + 1) → (Fin (n + 1) → ℝ) → ℝ}
    {p : ℝ → (Fin (n + 1) → ℝ) → ℝ} (h : ClassicalMHD L nu eta T u b p) (s : ℕ) :
    ∃ C, 0 ≤ C ∧ ∀ (N : Fin (n + 1) → ℕ), (∀ i, 0 < N i) → ∀ K : ℝ, 0 ≤ K → (∀ i, K ≤ Real.pi * N i / L i) →
      ∀ (U U' B B' : ℝ → SArr (n + 1) (RModes N)),
      (∀ t ∈ Set.Icc 0 T, ∀ i k, HasDerivWithinAt (fun s => U s i k) (U' t i k) (Set.Icc 0 T) t) →
      (∀ t ∈ Set.Icc 0 T, ∀ i k, HasDerivWithinAt (fun s => B s i k) (B' t i k) (Set.Icc 0 T) t) →
      (∀ t ∈ Set.Icc 0 T, Solenoidal (scaledWaves N L) (U t) ∧ (∀ i, Unmasked N (U t i)) ∧ ∀ i, IsReal N (U t i)) →
      (∀ t ∈ Set.Icc 0 T, Solenoidal (scaledWaves N L) (B t) ∧ (∀ i, Unmasked N (B t i)) ∧ ∀ i, IsReal N (B t i)) →
      (∀ t ∈ Set.Icc 0 T, ∃ P, ∀ v : SArr (n + 1) (RModes N), (∀ i, Unmasked N (v i)) → (∀ i, IsReal N (v i)) → power (rweight N) v (U' t) =
        momentumWork L nu (fun i => fn N L (U t i)) (fun i x => ∑ j, fn N L (B t j) x * pderiv j (fn N L (B t i)) x) (fun i => fn N L (v i)) (fn N L P)) →
      (∀ t ∈ Set.Icc 0 T, ∀ v : SArr (n + 1) (RModes N), (∀ i, Unmasked N (v i)) → (∀ i, IsReal N (v i)) → power (rweight N) v (B' t) =
        inductionWork L eta (fun i => fn N L (U t i)) (fun i => fn N L (B t i)) (fun i => fn N L (v i))) →
      ∀ t ∈ Set.Icc 0 T, boxMean L (fun x => ∑ i, (u t i x - fn N L (U t i) x) ^ 2) + boxMean L (fun x => ∑ i, (b t i x - fn N L (B t i) x) ^ 2) ≤
        C * (boxMean L (fun x => ∑ i, (u 0 i x - fn N L (U 0 i) x) ^ 2) + boxMean L (fun x => ∑ i, (b 0 i x - fn N L (B 0 i) x) ^ 2) +
          1 / (1 + K ^ 2) ^ s) := by
  obtain ⟨A1, hA1, b1⟩ := exists_common (P := fun i B => FieldBound L T s (fun t => u t i) B) (fun i a b hab H => fieldBound_mono hab H)
    fun i => field_bound hL T s (h.smooth i) fun t => h.periodic t i
  obtain ⟨A2, hA2, b2⟩ := exists_common (P := fun i B => FieldBound L T s (fun t => b t i) B) (fun i a b hab H => fieldBound_mono hab H)
    fun i => field_bound hL T s (h.smooth_b i) fun t => h.periodic_b t i
  obtain ⟨A, hA⟩ : ∃ A, A = A1 + A2 := ⟨_, rfl⟩
  have hA0 : 0 ≤ A := by linarith
  replace b1 : ∀ i, FieldBound L T s (fun t => u t i) A := fun i => fieldBound_mono (by linarith) (b1 i)
  replace b2 : ∀ i, FieldBound L T s (fun t => b t i) A := fun i => fieldBound_mono (by linarith) (b2 i)
  obtain ⟨D, hD⟩ : ∃ D : ℝ, D = ((n + 1 : ℕ) : ℝ) := ⟨_, rfl⟩
  have hD0 : 0 ≤ D := by rw [hD]; exact Nat.cast_nonneg _
  obtain ⟨k, hk⟩ : ∃ k, k = 16 * D * A := ⟨_, rfl⟩
  have hk0 : 0 ≤ k := by rw [hk]; positivity
  obtain ⟨Q, hQ⟩ : ∃ Q, Q = 2 * A * (4 * D * (D * A) + 4 * (D * A)) := ⟨_, rfl⟩
  have hQ0 : 0 ≤ Q := by rw [hQ]; positivity
  refine ⟨2 * (D * A) + Real.exp (k * T) * (1 + |T| * Q), by positivity, fun N hN K hK hKN U U' B B' hU hB hadm hadb hwu hwb => ?_⟩
  obtain ⟨ka, hka⟩ : ∃ ka, ka = 1 / (1 + K ^ 2) ^ s := ⟨_, rfl⟩
  have hka0 : 0 ≤ ka := by rw [hka]; positivity
  rw [← hka]
  have hr1 := fun t ht => rsq_le (N := N) (t := t) b1 ht hN hK hKN
  have hr2 := fun t ht => rsq_le (N := N) (t := t) b2 ht hN hK hKN
  rw [← hka, ← hD] at hr1 hr2
  refine error_conclusion (rest := fun t => rsq N L (u t) + rsq N L (b t)) (y := fun t => esq N L (u t) (U t) + esq N L (b t) (B t))
    (y' := fun t => 2 * power (rweight N) (fun i => err N L (u t i) (U t i)) (fun i k => proj N L (fun x => _root_.deriv (fun s => u s i x) t) k - U' t i k) +
      2 * power (rweight N) (fun i => err N L (b t i) (B t i)) (fun i k => proj N L (fun x => _root_.deriv (fun s => b s i x) t) k - B' t i k))
    hk0 hQ0 (by positivity) hka0 (fun t ht => ?_) (fun t ht => ?_) (fun t ht => ?_) (fun t ht => ?_) fun t ht => ?_
  · rw [total_split hN hL (fun i => ((h.smooth i).space t).continuous) (hadm t ht).2.1,
      total_split hN hL (fun i => ((h.smooth_b i).space t).continuous) (hadb t ht).2.1]
    ring
  · have e1 := (hr1 t ht).1
    have e2 := (hr2 t ht).1
    have e3 := rsq_nonneg (N := N) hL (u t)
    have e4 := rsq_nonneg (N := N) hL (b t)
    exact ⟨add_nonneg e3 e4, by linarith⟩
  · exact add_nonneg (esq_nonneg hL _ _) (esq_nonneg hL _ _)
  · have d1 := power_self_hasDeriv (rweight N) (fun t i => err N L (u t i) (U t i))
      (fun i k => proj N L (fun x => _root_.deriv (fun s => u s i x) t) k - U' t i k) (s := Set.Icc 0 T) (t := t) fun i k =>
      (proj_hasDeriv N L (h.smooth i) k t).hasDerivWithinAt.sub (hU t ht i k)
    have d2 := power_self_hasDeriv (rweight N) (fun t i => err N L (b t i) (B t i))
      (fun i k => proj N L (fun x => _root_.deriv (fun s => b s i x) t) k - B' t i k) (s := Set.Icc 0 T) (t := t) fun i k =>
      (proj_hasDeriv N L (h.smooth_b i) k t).hasDerivWithinAt.sub (hB t ht i k)
    refine (d1.add d2).congr (fun t ht => ?_) ?_
    · rw [esq_power hN hL (hadm t ht).2.1 (hadm t ht).2.2, esq_power hN hL (hadb t ht).2.1 (hadb t ht).2.2]
      rfl
    · rw [esq_power hN hL (hadm t ht).2.1 (hadm t ht).2.2, esq_power hN hL (hadb t ht).2.1 (hadb t ht).2.2]
      rfl
  · obtain ⟨P, hP⟩ := hwu t ht
    rw [power_error hL _ (fun i => err_unmasked _ ((hadm t ht).2.1 i)) (fun i => ((h.smooth i).deriv.space t).continuous) (U' t),
      power_error hL _ (fun i => err_unmasked _ ((hadb t ht).2.1 i)) (fun i => ((h.smooth_b i).deriv.space t).continuous) (B' t),
      hP _ (fun i => err_unmasked _ ((hadm t ht).2.1 i)) fun i => err_real _ ((hadm t ht).2.2 i),
      hwb t ht _ (fun i => err_unmasked _ ((hadb t ht).2.1 i)) fun i => err_real _ ((hadb t ht).2.2 i)]
    simp only [h.momentum t ht, h.induction t ht]
    have key := mhd_work hN hL hnu heta hA0 (fun i => (b1 i t ht N hN).1) (fun i => (b2 i t ht N hN).1) (h.divergence t ht) (h.divergence_b t ht)
      (h.smooth_p t) (h.periodic_p t) (hadm t ht).1 (hadb t ht).1 (hadm t ht).2.1 (hadb t ht).2.1 P
    rw [← hD] at key
    have e1 := hr1 t ht
    have e2 := hr2 t ht
    have q1 := mul_le_mul_of_nonneg_left (add_le_add e1.1 e2.1) (mul_nonneg hA0 hD0)
    have q2 := mul_le_mul_of_nonneg_left (add_le_add e1.2 e2.2) hA0
    rw [hk, hQ]
    rw [← mul_add]
    refine (mul_le_mul_of_nonneg_left (le_of_eq_of_le rfl key) (by norm_num : (0 : ℝ) ≤ 2)).trans ?_
    linarith

end SpectralDNS.Torus

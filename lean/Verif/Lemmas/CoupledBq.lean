import Verif.Lemmas.CoupledTime

/-!
# Galerkin solutions of the Boussinesq equations follow classical solutions
-/

namespace SpectralDNS.Torus

open Complex Spec Periodic Dealias MeasureTheory
open scoped ContDiff

section
variable {n : ℕ} {N : Fin (n + 1) → ℕ} {L : Fin (n + 1) → ℝ}

/-- Work of the buoyancy on the error. -/
theorem buoyancy_error (hL : ∀ i, 0 < L i) (Ri : ℝ) {rho : (Fin (n + 1) → ℝ) → ℝ} (hr : Continuous rho) (R : RModes N → ℂ)
    (E : SArr (n + 1) (RModes N)) (e : Fin (n + 1)) :
    ∑ i, (boxMean L (fun x => (-if i = e then Ri * rho x else 0) * fn N L (E i) x) - boxMean L (fun x => (if i = e then -Ri * fn N L R x else 0) * fn N L (E i) x)) ≤
      |Ri| / 2 * (2 * boxMean L (fun x => ∑ i, fn N L (E i) x ^ 2) + boxMean L (fun x => (rho x - fn N L (proj N L rho) x) ^ 2) +
        boxMean L (fun x => fn N L (err N L rho R) x ^ 2)) := by
  have cE : ∀ i, Continuous (fn N L (E i)) := fun i => fn_cont _
  have cR := fn_cont (L := L) R
  have cP := fn_cont (L := L) (proj N L rho)
  have cX := fn_cont (L := L) (err N L rho R)
  rw [Finset.sum_eq_single e]
  rotate_left
  · intro i _ hi
    simp only [hi, if_false, neg_zero, zero_mul, sub_self]
  · intro h
    exact absurd (Finset.mem_univ e) h
  simp only [if_true]
  have c1 : Continuous fun x => -(Ri * rho x) * fn N L (E e) x := (continuous_const.mul hr).neg.mul (cE e)
  have c2 : Continuous fun x => -Ri * fn N L R x * fn N L (E e) x := (continuous_const.mul cR).mul (cE e)
  have c3 : Continuous fun x => ∑ i, fn N L (E i) x ^ 2 := continuous_finsetSum _ fun i _ => (cE i).pow 2
  have c4 : Continuous fun x => (rho x - fn N L (proj N L rho) x) ^ 2 := (hr.sub cP).pow 2
  have c5 : Continuous fun x => fn N L (err N L rho R) x ^ 2 := cX.pow 2
  have c6 : Continuous fun x => 2 * ∑ i, fn N L (E i) x ^ 2 := continuous_const.mul c3
  rw [← boxMean_sub L c1 c2, ← boxMean_const_mul, ← boxMean_add L c6 c4, ← boxMean_add L (c6.fun_add c4) c5, ← boxMean_const_mul]
  refine boxMean_mono hL (c1.sub c2) (continuous_const.mul ((c6.add c4).add c5)) fun x _ => ?_
  have hs : fn N L (E e) x ^ 2 ≤ ∑ i, fn N L (E i) x ^ 2 := Finset.single_le_sum (f := fun i => fn N L (E i) x ^ 2) (fun i _ => sq_nonneg _) (Finset.mem_univ e)
  rw [fn_err]
  set a := rho x - fn N L (proj N L rho) x with ha
  set b := fn N L (proj N L rho) x - fn N L R x with hb
  set z := fn N L (E e) x
  have e1 : -(Ri * rho x) * z - -Ri * fn N L R x * z = -Ri * (a * z + b * z) := by rw [ha, hb]; ring
  rw [e1]
  have h1 : -Ri * (a * z + b * z) ≤ |Ri| * |a * z + b * z| := by
    refine (le_abs_self _).trans_eq ?_
    rw [abs_mul, abs_neg]
  have h2 : |a * z + b * z| ≤ (2 * z ^ 2 + a ^ 2 + b ^ 2) / 2 := by
    rw [abs_le]
    constructor <;> nlinarith [sq_nonneg (a + z), sq_nonneg (a - z), sq_nonneg (b + z), sq_nonneg (b - z)]
  have h3 := mul_le_mul_of_nonneg_left h2 (abs_nonneg Ri)
  have h4 := mul_le_mul_of_nonneg_left hs (abs_nonneg Ri)
  linarith

/-- Work of the Boussinesq equations on the error; gravity along the axis `e`. -/
theorem bq_work (hN : ∀ i, 0 < N i) (hL : ∀ i, 0 < L i) {nu Ri kappa A : ℝ} (hnu : 0 ≤ nu) (hka : 0 ≤ kappa) (hA : 0 ≤ A) (e : Fin (n + 1))
    {u : Fin (n + 1) → (Fin (n + 1) → ℝ) → ℝ} (hu : ∀ i, Bounded N L A (u i)) {rho : (Fin (n + 1) → ℝ) → ℝ} (hr : Bounded N L A rho)
    (du : ∀ x, ∑ i, pderiv i (u i) x = 0) {p : (Fin (n + 1) → ℝ) → ℝ} (hp : ContDiff ℝ 1 p) (pp : BoxPeriodic L p)
    {U : SArr (n + 1) (RModes N)} {R : RModes N → ℂ} (hU : Solenoidal (scaledWaves N L) U) (hm : ∀ i, Unmasked N (U i))
    (hmr : Unmasked N R) (P : RModes N → ℂ) :
    boxMean L (fun x => ∑ i, (-(∑ j, u j x * pderiv j (u i) x) - pderiv i p x + nu * (∑ j, pderiv j (pderiv j (u i)) x) - if i = e then Ri * rho x else 0) *
        fn N L (err N L (u i) (U i)) x) -
      momentumWork L nu (fns N L U) (fun i x => if i = e then -Ri * fn N L R x else 0) (fns N L fun i => err N L (u i) (U i)) (fn N L P) +
    (boxMean L (fun x => (-(∑ j, u j x * pderiv j rho x) + kappa * ∑ j, pderiv j (pderiv j rho) x) * fn N L (err N L rho R) x) -
      scalarWork L kappa (fns N L U) (fn N L R) (fn N L (err N L rho R))) ≤
    A * ((((n + 1 : ℕ) : ℝ) + 1) * (rsq N L u + esq N L u U) + (∑ i, gsq N L (u i)) + gsq N L rho +
      3 * ((n + 1 : ℕ) : ℝ) * (esq N L u U + boxMean L (fun x => fn N L (err N L rho R) x ^ 2))) +
    |Ri| / 2 * (2 * esq N L u U + boxMean L (fun x => (rho x - fn N L (proj N L rho) x) ^ 2) + boxMean L (fun x => fn N L (err N L rho R) x ^ 2)) := by
  have hf : ∀ i, Continuous fun x => -if i = e then Ri * rho x else 0 := fun i => by
    split_ifs
    · exact (continuous_const.mul hr.smooth.continuous).neg
    · exact continuous_const
  have hg : ∀ i, Continuous fun x => if i = e then -Ri * fn N L R x else 0 := fun i => by
    split_ifs
    · exact continuous_const.mul (fn_cont R)
    · exact continuous_const
  have h1 := momentum_error hN hL hnu hA hu du hp pp hf hg hU hm P
  have h2 := scalar_error hN hL hka hA hu hr hU hmr
  have h3 := buoyancy_error hL Ri hr.smooth.continuous R (fun i => err N L (u i) (U i)) e
  have hE : esq N L u U = boxMean L (fun x => ∑ i, fn N L (err N L (u i) (U i)) x ^ 2) := rfl
  rw [← hE] at h1 h3
  rw [sqs_eq] at h1 h2
  simp only [sub_eq_add_neg] at h1 ⊢
  simp only [sub_eq_add_neg] at h2 h3
  linarith

end

/-- Semi-discrete solutions whose right-hand side does the work of the Boussinesq equations follow smooth solutions. -/
theorem bq_error {L : Fin 2 → ℝ} (hL : ∀ i, 0 < L i) {nu Ri kappa T : ℝ} (hnu : 0 ≤ nu) (hkap : 0 ≤ kappa) {u : ℝ → Fin 2 → (Fin 2 → ℝ) → ℝ}
    {p rho : ℝ → (Fin 2 → ℝ) → ℝ} (h : ClassicalBq L nu Ri kappa T u p rho) (s : ℕ) :
    ∃ C, 0 ≤ C ∧ ∀ (N : Fin 2 → ℕ), (∀ i, 0 < N i) → ∀ K : ℝ, 0 ≤ K → (∀ i, K ≤ Real.pi * N i / L i) →
      ∀ (U U' : ℝ → SArr 2 (RModes N)) (R R' : ℝ → RModes N → ℂ),
      (∀ t ∈ Set.Icc 0 T, ∀ i k, HasDerivWithinAt (fun s => U s i k) (U' t i k) (Set.Icc 0 T) t) →
      (∀ t ∈ Set.Icc 0 T, ∀ k, HasDerivWithinAt (fun s => R s k) (R' t k) (Set.Icc 0 T) t) →
      (∀ t ∈ Set.Icc 0 T, Solenoidal (scaledWaves N L) (U t) ∧ (∀ i, Unmasked N (U t i)) ∧ ∀ i, IsReal N (U t i)) →
      (∀ t ∈ Set.Icc 0 T, Unmasked N (R t) ∧ IsReal N (R t)) →
      (∀ t ∈ Set.Icc 0 T, ∃ P, ∀ v : SArr 2 (RModes N), (∀ i, Unmasked N (v i)) → (∀ i, IsReal N (v i)) → power (rweight N) v (U' t) =
        momentumWork L nu (fun i => fn N L (U t i)) (fun i x => if i = 1 then -Ri * fn N L (R t) x else 0) (fun i => fn N L (v i)) (fn N L P)) →
      (∀ t ∈ Set.Icc 0 T, ∀ q : RModes N → ℂ, Unmasked N q → IsReal N q → Spec.inner (rweight N) q (R' t) =
        scalarWork L kappa (fun i => fn N L (U t i)) (fn N L (R t)) (fn N L q)) →
      ∀ t ∈ Set.Icc 0 T, boxMean L (fun x => ∑ i, (u t i x - fn N L (U t i) x) ^ 2) + boxMean L (fun x => (rho t x - fn N L (R t) x) ^ 2) ≤
        C * (boxMean L (fun x => ∑ i, (u 0 i x - fn N L (U 0 i) x) ^ 2) + boxMean L (fun x => (rho 0 x - fn N L (R 0) x) ^ 2) +
          1 / (1 + K ^ 2) ^ s) := by
  obtain ⟨A1, hA1, b1⟩ := exists_common (P := fun i B => FieldBound (n := 1) L T s (fun t => u t i) B) (fun i a b hab H => fieldBound_mono hab H)
    fun i => field_bound hL T s (h.smooth i) fun t => h.periodic t i
  obtain ⟨A2, hA2, b2⟩ := field_bound hL T s h.smooth_rho h.periodic_rho
  obtain ⟨A, hA⟩ : ∃ A, A = A1 + A2 := ⟨_, rfl⟩
  have hA0 : 0 ≤ A := by linarith
  replace b1 : ∀ i, FieldBound (n := 1) L T s (fun t => u t i) A := fun i => fieldBound_mono (by linarith) (b1 i)
  replace b2 : FieldBound (n := 1) L T s rho A := fieldBound_mono (by linarith) b2
  obtain ⟨r, hr⟩ : ∃ r, r = |Ri| := ⟨_, rfl⟩
  have hr0 : 0 ≤ r := by rw [hr]; exact abs_nonneg _
  obtain ⟨k, hk⟩ : ∃ k, k = 18 * A + 2 * r := ⟨_, rfl⟩
  have hk0 : 0 ≤ k := by rw [hk]; positivity
  obtain ⟨Q, hQ⟩ : ∃ Q, Q = 2 * A * (9 * A) + r * A := ⟨_, rfl⟩
  have hQ0 : 0 ≤ Q := by rw [hQ]; positivity
  refine ⟨3 * A + Real.exp (k * T) * (1 + |T| * Q), by positivity, fun N hN K hK hKN U U' R R' hU hR hadm hadr hwu hwr => ?_⟩
  obtain ⟨ka, hka⟩ : ∃ ka, ka = 1 / (1 + K ^ 2) ^ s := ⟨_, rfl⟩
  have hka0 : 0 ≤ ka := by rw [hka]; positivity
  rw [← hka]
  have hr1 := fun t ht => rsq_le (n := 1) (N := N) (t := t) b1 ht hN hK hKN
  have hr2 := fun t ht => (b2 t ht N hN).2 K hK hKN
  rw [← hka] at hr1 hr2
  have hD : ((1 + 1 : ℕ) : ℝ) = 2 := by norm_num
  rw [hD] at hr1
  have hep : ∀ t ∈ Set.Icc 0 T, boxMean L (fun x => fn N L (err (n := 1) N L (rho t) (R t)) x ^ 2) =
      power (rweight N) (fun _ : Fin 1 => err (n := 1) N L (rho t) (R t)) (fun _ : Fin 1 => err (n := 1) N L (rho t) (R t)) := fun t ht => by
    rw [← mean_power (n := 1) N L hN hL _ _ (fun _ => err_unmasked (n := 1) (rho t) (hadr t ht).1) (fun _ => err_unmasked (n := 1) (rho t) (hadr t ht).1)
      fun _ => err_real (n := 1) (rho t) (hadr t ht).2]
    simp [sq]
  refine error_conclusion (rest := fun t => rsq (n := 1) N L (u t) + boxMean L (fun x => (rho t x - fn N L (proj (n := 1) N L (rho t)) x) ^ 2))
    (y := fun t => esq (n := 1) N L (u t) (U t) + boxMean L (fun x => fn N L (err (n := 1) N L (rho t) (R t)) x ^ 2))
    (y' := fun t => 2 * power (rweight N) (fun i => err (n := 1) N L (u t i) (U t i)) (fun i k => proj (n := 1) N L (fun x => _root_.deriv (fun s => u s i x) t) k - U' t i k) +
      2 * power (rweight N) (fun _ : Fin 1 => err (n := 1) N L (rho t) (R t)) (fun _ k => proj (n := 1) N L (fun x => _root_.deriv (fun s => rho s x) t) k - R' t k))
    hk0 hQ0 (by positivity) hka0 (fun t ht => ?_) (fun t ht => ?_) (fun t ht => ?_) (fun t ht => ?_) fun t ht => ?_
  · rw [total_split (n := 1) hN hL (fun i => ((h.smooth i).space t).continuous) (hadm t ht).2.1,
      mean_split (n := 1) hN hL (h.smooth_rho.space t).continuous (hadr t ht).1]
    change _ + (_ + boxMean L (fun x => fn N L (err (n := 1) N L (rho t) (R t)) x ^ 2)) = _
    ring
  · have e1 := (hr1 t ht).1
    have e2 := (hr2 t ht).1
    have e3 := rsq_nonneg (n := 1) (N := N) hL (u t)
    have e4 : 0 ≤ boxMean L (fun x => (rho t x - fn N L (proj (n := 1) N L (rho t)) x) ^ 2) := boxMean_nonneg hL fun _ _ => sq_nonneg _
    exact ⟨add_nonneg e3 e4, by linarith⟩
  · exact add_nonneg (esq_nonneg (n := 1) hL _ _) (boxMean_nonneg hL fun _ _ => sq_nonneg _)
  · have d1 := power_self_hasDeriv (rweight N) (fun t i => err (n := 1) N L (u t i) (U t i))
      (fun i k => proj (n := 1) N L (fun x => _root_.deriv (fun s => u s i x) t) k - U' t i k) (s := Set.Icc 0 T) (t := t) fun i k =>
      (proj_hasDeriv (n := 1) N L (h.smooth i) k t).hasDerivWithinAt.sub (hU t ht i k)
    have d2 := power_self_hasDeriv (rweight N) (fun t (_ : Fin 1) => err (n := 1) N L (rho t) (R t))
      (fun _ k => proj (n := 1) N L (fun x => _root_.deriv (fun s => rho s x) t) k - R' t k) (s := Set.Icc 0 T) (t := t) fun _ k =>
      (proj_hasDeriv (n := 1) N L h.smooth_rho k t).hasDerivWithinAt.sub (hR t ht k)
    refine (d1.add d2).congr (fun t ht => ?_) ?_
    · rw [esq_power (n := 1) hN hL (hadm t ht).2.1 (hadm t ht).2.2, hep t ht]
      rfl
    · rw [esq_power (n := 1) hN hL (hadm t ht).2.1 (hadm t ht).2.2, hep t ht]
      rfl
  · obtain ⟨P, hP⟩ := hwu t ht
    have pr : power (rweight N) (fun _ : Fin 1 => err (n := 1) N L (rho t) (R t)) (fun _ k => proj (n := 1) N L (fun x => _root_.deriv (fun s => rho s x) t) k - R' t k) =
        boxMean L (fun x => _root_.deriv (fun s => rho s x) t * fn N L (err (n := 1) N L (rho t) (R t)) x) -
          scalarWork L kappa (fun i => fn N L (U t i)) (fn N L (R t)) (fn N L (err (n := 1) N L (rho t) (R t))) := by
      rw [power_inner, Fin.sum_univ_one, Periodic.inner_sub_right,
        mean_fn (n := 1) N L hL (h.smooth_rho.deriv.space t).continuous (err_unmasked (n := 1) (rho t) (hadr t ht).1), inner_symm,
        hwr t ht _ (err_unmasked (n := 1) (rho t) (hadr t ht).1) (err_real (n := 1) (rho t) (hadr t ht).2)]
    rw [power_error (n := 1) hL _ (fun i => err_unmasked (n := 1) _ ((hadm t ht).2.1 i)) (fun i => ((h.smooth i).deriv.space t).continuous) (U' t), pr,
      hP _ (fun i => err_unmasked (n := 1) _ ((hadm t ht).2.1 i)) fun i => err_real (n := 1) _ ((hadm t ht).2.2 i)]
    simp only [h.momentum t ht, h.transport t ht]
    have key := bq_work (n := 1) hN hL hnu hkap hA0 (Ri := Ri) 1 (fun i => (b1 i t ht N hN).1) (b2 t ht N hN).1 (h.divergence t ht)
      (h.smooth_p t) (h.periodic_p t) (hadm t ht).1 (hadm t ht).2.1 (hadr t ht).1 P
    rw [hD, ← hr] at key
    have e1 := hr1 t ht
    have e2 := hr2 t ht
    have q1 := mul_le_mul_of_nonneg_left e1.1 hA0
    have q2 := mul_le_mul_of_nonneg_left (add_le_add e1.2 e2.2) hA0
    have q3 := mul_le_mul_of_nonneg_left e2.1 hr0
    have q4 := mul_nonneg hr0 (boxMean_nonneg hL (f := fun x => fn N L (err (n := 1) N L (rho t) (R t)) x ^ 2) fun _ _ => sq_nonneg _)
    have q5 := mul_nonneg hA0 (boxMean_nonneg hL (f := fun x => fn N L (err (n := 1) N L (rho t) (R t)) x ^ 2) fun _ _ => sq_nonneg _)
    rw [hk, hQ]
    rw [← mul_add]
    refine (mul_le_mul_of_nonneg_left (le_of_eq_of_le rfl key) (by norm_num : (0 : ℝ) ≤ 2)).trans ?_
    linarith

end SpectralDNS.Torus

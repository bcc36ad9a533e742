import Verif.Lemmas.TransportError

/-!
# Errors of coupled fields

Balances of momentum, induction and scalars split into transport, diffusion and forces; bounds for fields of a smooth solution that hold at all times and
on all meshes; and the conclusion from the rate of the error.
-/

namespace SpectralDNS.Torus

open Complex Spec Periodic Dealias MeasureTheory
open scoped ContDiff

variable {n : ℕ} {N : Fin (n + 1) → ℕ} {L : Fin (n + 1) → ℝ}

/-- Transport of `w` by `u` tested with `z`. -/
noncomputable def cnv (L : Fin (n + 1) → ℝ) (u : Fin (n + 1) → (Fin (n + 1) → ℝ) → ℝ) (w z : (Fin (n + 1) → ℝ) → ℝ) : ℝ :=
  boxMean L fun x => (∑ j, u j x * pderiv j w x) * z x

/-- The functions of a Galerkin vector. -/
noncomputable def fns (N : Fin (n + 1) → ℕ) (L : Fin (n + 1) → ℝ) (U : SArr (n + 1) (RModes N)) : Fin (n + 1) → (Fin (n + 1) → ℝ) → ℝ := fun i => fn N L (U i)

theorem cnv_cont {u : Fin (n + 1) → (Fin (n + 1) → ℝ) → ℝ} {w z : (Fin (n + 1) → ℝ) → ℝ} (hu : ∀ i, Continuous (u i)) (hw : ∀ j, Continuous (pderiv j w))
    (hz : Continuous z) : Continuous fun x => (∑ j, u j x * pderiv j w x) * z x :=
  (continuous_finsetSum _ fun j _ => (hu j).mul (hw j)).mul hz

theorem cnv_skew (hL : ∀ i, 0 < L i) {U : SArr (n + 1) (RModes N)} (hU : Solenoidal (scaledWaves N L) U) (a b : RModes N → ℂ) :
    cnv L (fns N L U) (fn N L a) (fn N L b) + cnv L (fns N L U) (fn N L b) (fn N L a) = 0 := by
  have := transport_skew hL hU a b
  simp only [cnv, fns, Finset.sum_mul]
  exact this

/-- The squares that bound a transport error. -/
noncomputable def sqs (N : Fin (n + 1) → ℕ) (L : Fin (n + 1) → ℝ) (u : Fin (n + 1) → (Fin (n + 1) → ℝ) → ℝ) (U : SArr (n + 1) (RModes N)) : ℝ :=
  boxMean L (fun x => ∑ j, (u j x - fn N L (proj N L (u j)) x) ^ 2) + boxMean L (fun x => ∑ j, fn N L (err N L (u j) (U j)) x ^ 2)

noncomputable def gsq (N : Fin (n + 1) → ℕ) (L : Fin (n + 1) → ℝ) (w : (Fin (n + 1) → ℝ) → ℝ) : ℝ :=
  boxMean L (fun x => ∑ j, (pderiv j w x - fn N L (proj N L (pderiv j w)) x) ^ 2)

/-- Bounds of a velocity and of the gradient of a transported field. -/
structure Bounded (N : Fin (n + 1) → ℕ) (L : Fin (n + 1) → ℝ) (A : ℝ) (w : (Fin (n + 1) → ℝ) → ℝ) : Prop where
  smooth : ContDiff ℝ ∞ w
  periodic : BoxPeriodic L w
  value : ∀ x ∈ Set.Icc 0 L, |w x| ≤ A
  grad : ∀ j, ∀ x ∈ Set.Icc 0 L, |pderiv j w x| ≤ A
  rest : ∀ j, ∀ x ∈ Set.Icc 0 L, |pderiv j w x - fn N L (proj N L (pderiv j w)) x| ≤ A

theorem cnv_error (hL : ∀ i, 0 < L i) {A : ℝ} (hA : 0 ≤ A) {u : Fin (n + 1) → (Fin (n + 1) → ℝ) → ℝ} (hu : ∀ i, Bounded N L A (u i))
    {w : (Fin (n + 1) → ℝ) → ℝ} (hw : Bounded N L A w) (U : SArr (n + 1) (RModes N)) (W Z : RModes N → ℂ) :
    |cnv L u w (fn N L Z) - cnv L (fns N L U) (fn N L W) (fn N L Z) - cnv L (fns N L U) (fn N L (err N L w W)) (fn N L Z)| ≤
    A * (sqs N L u U + gsq N L w + 3 * ((n + 1 : ℕ) : ℝ) * boxMean L (fun x => fn N L Z x ^ 2)) := by
  have := transport_error hL hA (fun i => (hu i).smooth) hw.smooth hw.periodic U W Z (fun i => (hu i).value) hw.grad hw.rest
  simp only [← Finset.sum_mul] at this
  exact this

/-- The scalar balance: transport and diffusion of the error. -/
theorem scalar_error (hN : ∀ i, 0 < N i) (hL : ∀ i, 0 < L i) {kappa A : ℝ} (hk : 0 ≤ kappa) (hA : 0 ≤ A) {u : Fin (n + 1) → (Fin (n + 1) → ℝ) → ℝ}
    (hu : ∀ i, Bounded N L A (u i)) {w : (Fin (n + 1) → ℝ) → ℝ} (hw : Bounded N L A w) {U : SArr (n + 1) (RModes N)} {W : RModes N → ℂ}
    (hU : Solenoidal (scaledWaves N L) U) (hW : Unmasked N W) :
    boxMean L (fun x => (-(∑ j, u j x * pderiv j w x) + kappa * ∑ j, pderiv j (pderiv j w) x) * fn N L (err N L w W) x) -
      scalarWork L kappa (fns N L U) (fn N L W) (fn N L (err N L w W)) ≤
    A * (sqs N L u U + gsq N L w + 3 * ((n + 1 : ℕ) : ℝ) * boxMean L (fun x => fn N L (err N L w W) x ^ 2)) := by
  have h1 := cnv_error hL hA hu hw U W (err N L w W)
  have h2 := mul_le_mul_of_nonneg_left (diffusion_error hN hL hw.smooth hw.periodic hW) hk
  have h3 := cnv_skew hL hU (err N L w W) (err N L w W)
  generalize err N L w W = E at h1 h2 h3 ⊢
  have cu : ∀ i, Continuous (u i) := fun i => (hu i).smooth.continuous
  have cg : ∀ j, Continuous (pderiv j w) := fun j => (smooth_pderiv hw.smooth j).continuous
  have cl : ∀ j, Continuous (pderiv j (pderiv j w)) := fun j => (smooth_pderiv (smooth_pderiv hw.smooth j) j).continuous
  have cE := fn_cont (L := L) E
  have c1 := cnv_cont cu cg cE
  have c2 : Continuous fun x => (∑ j, pderiv j (pderiv j w) x) * fn N L E x := (continuous_finsetSum _ fun j _ => cl j).mul cE
  have c3 := cnv_cont (u := fns N L U) (fun i => fn_cont (U i)) (dfn_cont (L := L) W) cE
  have c4 : Continuous fun x => ∑ j, pderiv j (fn N L W) x * pderiv j (fn N L E) x := continuous_finsetSum _ fun j _ => (dfn_cont W j).mul (dfn_cont E j)
  have e1 : boxMean L (fun x => (-(∑ j, u j x * pderiv j w x) + kappa * ∑ j, pderiv j (pderiv j w) x) * fn N L E x) =
      -cnv L u w (fn N L E) + kappa * boxMean L (fun x => (∑ j, pderiv j (pderiv j w) x) * fn N L E x) := by
    rw [cnv, ← boxMean_neg, ← boxMean_const_mul, ← boxMean_add L c1.fun_neg (continuous_const.fun_mul c2)]
    exact congrArg _ (funext fun x => by ring)
  have e2 : scalarWork L kappa (fns N L U) (fn N L W) (fn N L E) =
      -cnv L (fns N L U) (fn N L W) (fn N L E) - kappa * boxMean L (fun x => ∑ j, pderiv j (fn N L W) x * pderiv j (fn N L E) x) := by
    rw [cnv, ← boxMean_neg, ← boxMean_const_mul, ← boxMean_sub L c3.fun_neg (continuous_const.fun_mul c4), scalarWork]
    exact congrArg _ (funext fun x => by ring)
  rw [e1, e2]
  rw [abs_le] at h1
  linarith

theorem sum_means {F : Fin (n + 1) → (Fin (n + 1) → ℝ) → ℝ} (h : ∀ i, Continuous (F i)) : boxMean L (fun x => ∑ i, F i x) = ∑ i, boxMean L (F i) :=
  boxMean_sum L _ h

/-- The momentum balance as scalar balances and forces. -/
theorem momentum_error (hN : ∀ i, 0 < N i) (hL : ∀ i, 0 < L i) {nu A : ℝ} (hnu : 0 ≤ nu) (hA : 0 ≤ A) {u : Fin (n + 1) → (Fin (n + 1) → ℝ) → ℝ}
    (hu : ∀ i, Bounded N L A (u i)) (hdiv : ∀ x, ∑ i, pderiv i (u i) x = 0) {p : (Fin (n + 1) → ℝ) → ℝ} (hp : ContDiff ℝ 1 p) (pp : BoxPeriodic L p)
    {f g : Fin (n + 1) → (Fin (n + 1) → ℝ) → ℝ} (hf : ∀ i, Continuous (f i)) (hg : ∀ i, Continuous (g i)) {U : SArr (n + 1) (RModes N)}
    (hU : Solenoidal (scaledWaves N L) U) (hm : ∀ i, Unmasked N (U i)) (P : RModes N → ℂ) :
    boxMean L (fun x => ∑ i, (-(∑ j, u j x * pderiv j (u i) x) - pderiv i p x + nu * (∑ j, pderiv j (pderiv j (u i)) x) + f i x) *
        fn N L (err N L (u i) (U i)) x) - momentumWork L nu (fns N L U) g (fns N L fun i => err N L (u i) (U i)) (fn N L P) ≤
      A * (((n + 1 : ℕ) : ℝ) * sqs N L u U + (∑ i, gsq N L (u i)) +
        3 * ((n + 1 : ℕ) : ℝ) * boxMean L (fun x => ∑ i, fn N L (err N L (u i) (U i)) x ^ 2)) +
      ∑ i, (boxMean L (fun x => f i x * fn N L (err N L (u i) (U i)) x) - boxMean L (fun x => g i x * fn N L (err N L (u i) (U i)) x)) := by
  have hs := fun i => scalar_error hN hL hnu hA hu (hu i) hU (hm i)
  have hsol := err_solenoidal (N := N) hL (fun i => (hu i).smooth) (fun i => (hu i).periodic) hdiv hU
  have hpr := pressure_error hL hp pp hsol
  have hdv := C83_divergence N L _ hsol
  obtain ⟨E, hE⟩ : ∃ E : SArr (n + 1) (RModes N), E = fun i => err N L (u i) (U i) := ⟨_, rfl⟩
  have hEi : ∀ i, err N L (u i) (U i) = E i := fun i => by rw [hE]
  simp only [hEi] at hs hpr hdv ⊢
  have cu : ∀ i, Continuous (u i) := fun i => (hu i).smooth.continuous
  have cg : ∀ i j, Continuous (pderiv j (u i)) := fun i j => (smooth_pderiv (hu i).smooth j).continuous
  have cl : ∀ i j, Continuous (pderiv j (pderiv j (u i))) := fun i j => (smooth_pderiv (smooth_pderiv (hu i).smooth j) j).continuous
  have cE : ∀ i, Continuous (fn N L (E i)) := fun i => fn_cont _
  have cp : ∀ i, Continuous fun x => pderiv i p x * fn N L (E i) x := fun i => (continuous_pderiv hp i).mul (cE i)
  have c1 : ∀ i, Continuous fun x => (-(∑ j, u j x * pderiv j (u i) x) + nu * ∑ j, pderiv j (pderiv j (u i)) x) * fn N L (E i) x := fun i =>
    ((continuous_finsetSum _ fun j _ => (cu j).mul (cg i j)).neg.add (continuous_const.mul (continuous_finsetSum _ fun j _ => cl i j))).mul (cE i)
  have c2 : ∀ i, Continuous fun x => f i x * fn N L (E i) x := fun i => (hf i).mul (cE i)
  have c3 : ∀ i, Continuous fun x => g i x * fn N L (E i) x := fun i => (hg i).mul (cE i)
  have c4 : ∀ i, Continuous fun x => -(∑ j, fns N L U j x * pderiv j (fn N L (U i)) x) * fn N L (E i) x -
      nu * ∑ j, pderiv j (fn N L (U i)) x * pderiv j (fn N L (E i)) x := fun i =>
    ((continuous_finsetSum _ fun j _ => (fn_cont (U j)).mul (dfn_cont (U i) j)).neg.mul (cE i)).sub
      (continuous_const.mul (continuous_finsetSum _ fun j _ => (dfn_cont (U i) j).mul (dfn_cont (E i) j)))
  have e1 : boxMean L (fun x => ∑ i, (-(∑ j, u j x * pderiv j (u i) x) - pderiv i p x + nu * (∑ j, pderiv j (pderiv j (u i)) x) + f i x) *
      fn N L (E i) x) = (∑ i, boxMean L fun x => (-(∑ j, u j x * pderiv j (u i) x) + nu * ∑ j, pderiv j (pderiv j (u i)) x) * fn N L (E i) x) +
        ∑ i, boxMean L fun x => f i x * fn N L (E i) x := by
    rw [← sum_means c1, ← sum_means c2, ← sub_zero (boxMean L (fun x => ∑ i, _) + _), ← hpr,
      ← boxMean_add L (continuous_finsetSum _ fun i _ => c1 i) (continuous_finsetSum _ fun i _ => c2 i),
      ← boxMean_sub L ((continuous_finsetSum _ fun i _ => c1 i).fun_add (continuous_finsetSum _ fun i _ => c2 i)) (continuous_finsetSum _ fun i _ => cp i)]
    refine congrArg _ (funext fun x => ?_)
    rw [← Finset.sum_add_distrib, ← Finset.sum_sub_distrib]
    exact Finset.sum_congr rfl fun i _ => by ring
  have e2 : momentumWork L nu (fns N L U) g (fns N L E) (fn N L P) =
      (∑ i, scalarWork L nu (fns N L U) (fn N L (U i)) (fn N L (E i))) + ∑ i, boxMean L fun x => g i x * fn N L (E i) x := by
    simp only [scalarWork]
    rw [← sum_means c4, ← sum_means c3, ← boxMean_add L (continuous_finsetSum _ fun i _ => c4 i) (continuous_finsetSum _ fun i _ => c3 i), momentumWork]
    refine congrArg _ (funext fun x => ?_)
    have h0 : ∑ i, fn N L P x * pderiv i (fn N L (E i)) x = 0 := by rw [← Finset.mul_sum, hdv x, mul_zero]
    rw [← add_zero (∑ i, _ + ∑ i, _), ← h0, ← Finset.sum_add_distrib, ← Finset.sum_add_distrib]
    exact Finset.sum_congr rfl fun i _ => by simp only [fns]; ring
  have h4 := Finset.sum_le_sum fun i (_ : i ∈ Finset.univ) => hs i
  rw [Finset.sum_sub_distrib, ← Finset.mul_sum, Finset.sum_add_distrib, Finset.sum_add_distrib, ← Finset.mul_sum, ← sum_means fun i => (cE i).fun_pow 2] at h4
  simp only [Finset.sum_const, Finset.card_univ, Fintype.card_fin, nsmul_eq_mul] at h4
  rw [e1, e2, Finset.sum_sub_distrib]
  linarith

/-- The induction balance as scalar balances and stretching. -/
theorem induction_split (U B v : SArr (n + 1) (RModes N)) (eta : ℝ) : inductionWork L eta (fns N L U) (fns N L B) (fns N L v) =
    ∑ i, (cnv L (fns N L B) (fn N L (U i)) (fn N L (v i)) + scalarWork L eta (fns N L U) (fn N L (B i)) (fn N L (v i))) := by
  have c3 : ∀ i, Continuous fun x => (∑ j, fns N L B j x * pderiv j (fn N L (U i)) x) * fn N L (v i) x := fun i =>
    cnv_cont (u := fns N L B) (fun i => fn_cont (B i)) (dfn_cont (L := L) (U i)) (fn_cont (v i))
  have c4 : ∀ i, Continuous fun x => -(∑ j, fns N L U j x * pderiv j (fn N L (B i)) x) * fn N L (v i) x -
      eta * ∑ j, pderiv j (fn N L (B i)) x * pderiv j (fn N L (v i)) x := fun i =>
    ((continuous_finsetSum _ fun j _ => (fn_cont (U j)).mul (dfn_cont (B i) j)).neg.mul (fn_cont (v i))).sub
      (continuous_const.mul (continuous_finsetSum _ fun j _ => (dfn_cont (B i) j).mul (dfn_cont (v i) j)))
  simp only [cnv, scalarWork]
  rw [Finset.sum_add_distrib, ← sum_means c3, ← sum_means c4, ← boxMean_add L (continuous_finsetSum _ fun i _ => c3 i) (continuous_finsetSum _ fun i _ => c4 i),
    inductionWork]
  refine congrArg _ (funext fun x => ?_)
  rw [← Finset.sum_add_distrib]
  exact Finset.sum_congr rfl fun i _ => by simp only [fns]; ring

/-! ## Bounds on all meshes -/

/-- Bounds of a field of a smooth solution, at all times and on all meshes: `B` bounds the values, the gradient and what the projection leaves of it, and
`B` times a power of the mesh size the mean squares. -/
def FieldBound (L : Fin (n + 1) → ℝ) (T : ℝ) (s : ℕ) (w : ℝ → (Fin (n + 1) → ℝ) → ℝ) (B : ℝ) : Prop :=
  ∀ t ∈ Set.Icc 0 T, ∀ N : Fin (n + 1) → ℕ, (∀ i, 0 < N i) → Bounded N L B (w t) ∧ ∀ K : ℝ, 0 ≤ K → (∀ i, K ≤ Real.pi * N i / L i) →
    boxMean L (fun x => (w t x - fn N L (proj N L (w t)) x) ^ 2) ≤ B * (1 / (1 + K ^ 2) ^ s) ∧ gsq N L (w t) ≤ B * (1 / (1 + K ^ 2) ^ s)

theorem fieldBound_mono {T : ℝ} {s : ℕ} {w : ℝ → (Fin (n + 1) → ℝ) → ℝ} {B B' : ℝ} (hB : B ≤ B') (h : FieldBound L T s w B) : FieldBound L T s w B' := by
  intro t ht N hN
  obtain ⟨h1, h2⟩ := h t ht N hN
  refine ⟨⟨h1.smooth, h1.periodic, fun x hx => (h1.value x hx).trans hB, fun j x hx => (h1.grad j x hx).trans hB, fun j x hx => (h1.rest j x hx).trans hB⟩,
    fun K hK hKN => ?_⟩
  have h3 : B * (1 / (1 + K ^ 2) ^ s) ≤ B' * (1 / (1 + K ^ 2) ^ s) := mul_le_mul_of_nonneg_right hB (by positivity)
  exact ⟨(h2 K hK hKN).1.trans h3, (h2 K hK hKN).2.trans h3⟩

theorem field_bound (hL : ∀ i, 0 < L i) (T : ℝ) (s : ℕ) {w : ℝ → (Fin (n + 1) → ℝ) → ℝ} (hw : SmoothField w) (pw : ∀ t, BoxPeriodic L (w t)) :
    ∃ B, 0 ≤ B ∧ FieldBound L T s w B := by
  have hsg : ∀ j, SmoothField fun t => pderiv j (w t) := fun j => hw.pderiv j
  have hcg : ∀ t j, Continuous (pderiv j (w t)) := fun t j => ((hsg j).space t).continuous
  have hpg : ∀ t j, BoxPeriodic L (pderiv j (w t)) := fun t j => (pw t).pderiv j
  obtain ⟨B1, hB1, b1⟩ := smooth_bound (L := L) hw T
  obtain ⟨B2, hB2, b2⟩ := exists_common (P := fun j B => ∀ t ∈ Set.Icc 0 T, ∀ x ∈ Set.Icc 0 L, |pderiv j (w t) x| ≤ B)
    (fun i a b hab H t ht x hx => (H t ht x hx).trans hab) fun j => smooth_bound (hsg j) T
  obtain ⟨C0, hC0, c0⟩ := exists_common (P := fun j B => ∀ t ∈ Set.Icc 0 T, ∀ m,
      (1 + ∑ j, (kappa L m j) ^ 2) ^ (n + 1) * ‖coef L (pderiv j (w t)) m‖ ≤ B)
    (fun i a b hab H t ht m => (H t ht m).trans hab) fun j => coef_decay hL (hsg j) (fun t => hpg t j) (n + 1) T
  obtain ⟨C1, hC1, c1⟩ := coef_decay hL hw pw (n + 1 + s) T
  obtain ⟨C2, hC2, c2⟩ := exists_common (P := fun j B => ∀ t ∈ Set.Icc 0 T, ∀ m,
      (1 + ∑ j, (kappa L m j) ^ 2) ^ (n + 1 + s) * ‖coef L (pderiv j (w t)) m‖ ≤ B)
    (fun i a b hab H t ht m => (H t ht m).trans hab) fun j => coef_decay hL (hsg j) (fun t => hpg t j) (n + 1 + s) T
  set M := ∑' m, majorant L m with hM
  have hM0 : 0 ≤ M := tsum_nonneg (majorant_nonneg L)
  have hCM : 0 ≤ C0 * M := mul_nonneg hC0 hM0
  have q1 : 0 ≤ (C1 * M) ^ 2 := sq_nonneg _
  have q2 : 0 ≤ ((n + 1 : ℕ) : ℝ) * (C2 * M) ^ 2 := by positivity
  obtain ⟨B, hB⟩ : ∃ B, B = B1 + B2 + 2 * (C0 * M) + (C1 * M) ^ 2 + ((n + 1 : ℕ) : ℝ) * (C2 * M) ^ 2 := ⟨_, rfl⟩
  refine ⟨B, by rw [hB]; positivity, fun t ht N hN => ⟨⟨hw.space t, pw t, fun x hx => (b1 t ht x hx).trans (by linarith),
    fun j x hx => (b2 j t ht x hx).trans (by linarith), fun j x hx => ?_⟩, fun K hK hKN => ?_⟩⟩
  · have h1 := b2 j t ht x hx
    have h2 := proj_bound N L hL (c0 j t ht) x
    refine (abs_sub _ _).trans ?_
    linarith
  · obtain ⟨ka, hka⟩ : ∃ ka, ka = 1 / (1 + K ^ 2) ^ s := ⟨_, rfl⟩
    have hka0 : 0 ≤ ka := by rw [hka]; positivity
    have hka1 : ka ≤ 1 := by
      rw [hka]
      exact div_le_one_of_le₀ (one_le_pow₀ (by nlinarith)) (by positivity)
    have hsq : ∀ c, (c / (1 + K ^ 2) ^ s * M) ^ 2 ≤ (c * M) ^ 2 * ka := fun c => by
      have e : c / (1 + K ^ 2) ^ s * M = c * M * ka := by rw [hka]; ring
      rw [e, mul_pow]
      exact mul_le_mul_of_nonneg_left (by nlinarith) (sq_nonneg _)
    have hfn : ∀ a, Continuous (fn N L a) := fun a => fn_cont a
    rw [← hka]
    constructor
    · refine ((proj_error N L hN hL (hw.space t).continuous (pw t) (c1 t ht) hK hKN).trans (hsq C1)).trans (mul_le_mul_of_nonneg_right ?_ hka0)
      linarith
    · rw [gsq, sum_means fun j => ((hcg t j).fun_sub (hfn _)).fun_pow 2]
      refine (Finset.sum_le_sum fun j _ => (proj_error N L hN hL (hcg t j) (hpg t j) (c2 j t ht) hK hKN).trans (hsq C2)).trans ?_
      simp only [Finset.sum_const, Finset.card_univ, Fintype.card_fin, nsmul_eq_mul]
      rw [← mul_assoc]
      exact mul_le_mul_of_nonneg_right (by linarith) hka0

/-- From the rate of the error to the error. -/
theorem error_conclusion {T k Q R ka : ℝ} (hk : 0 ≤ k) (hQ : 0 ≤ Q) (hR : 0 ≤ R) (hka : 0 ≤ ka) {tot rest y y' : ℝ → ℝ} (ht : ∀ t ∈ Set.Icc 0 T, tot t = rest t + y t)
    (h0 : ∀ t ∈ Set.Icc 0 T, 0 ≤ rest t ∧ rest t ≤ R * ka) (hy : ∀ t ∈ Set.Icc 0 T, 0 ≤ y t)
    (hd : ∀ t ∈ Set.Icc 0 T, HasDerivWithinAt y (y' t) (Set.Icc 0 T) t) (hb : ∀ t ∈ Set.Icc 0 T, y' t ≤ k * y t + Q * ka) :
    ∀ t ∈ Set.Icc 0 T, tot t ≤ (R + Real.exp (k * T) * (1 + |T| * Q)) * (tot 0 + ka) := by
  intro t htT
  have hT : 0 ≤ T := htT.1.trans htT.2
  have z : (0 : ℝ) ∈ Set.Icc 0 T := ⟨le_rfl, hT⟩
  have hfin := gronwall_le hk (mul_nonneg hQ hka) (hy 0 z) hd hb t htT
  have hX : 0 < Real.exp (k * T) := Real.exp_pos _
  obtain ⟨X, hXe⟩ : ∃ X, X = Real.exp (k * T) := ⟨_, rfl⟩
  rw [← hXe] at hfin hX ⊢
  rw [abs_of_nonneg hT]
  have h1 := h0 t htT
  have h2 := ht t htT
  have h3 := ht 0 z
  have h4 := (h0 0 z).1
  have h5 := hy 0 z
  have g1 : y 0 * X ≤ tot 0 * X := mul_le_mul_of_nonneg_right (by linarith) hX.le
  have ht0 : 0 ≤ tot 0 := by linarith
  have p1 : 0 ≤ R * tot 0 := by positivity
  have p2 : 0 ≤ X * (T * Q) * tot 0 := by positivity
  have p3 : 0 ≤ X * ka := by positivity
  nlinarith

end SpectralDNS.Torus

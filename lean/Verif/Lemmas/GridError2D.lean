import Verif.Lemmas.GridError
import Verif.Props.Convection
import Verif.Props.Bq

/-!
# Products of functions on the grid without dealiasing, in two dimensions

The work of the vortex form of NS2D on the error, on any grid that resolves the modes.
-/

namespace SpectralDNS.Torus

open Complex Spec Periodic Dealias MeasureTheory
open scoped ContDiff

/-- Coefficients of the vorticity. -/
noncomputable def vort2 {ι : Type*} (K : Fin 2 → ι → ℝ) (a : SArr 2 ι) (k : ι) : ℂ := I * (K 0 k * a 1 k - K 1 k * a 0 k)

/-- `v x w`, `w` being normal to the plane. -/
def turn2 (v : Fin 2 → ℝ) (w : ℝ) (i : Fin 2) : ℝ := if i = 0 then v 1 * w else -v 0 * w

section
variable (N : Fin 2 → ℕ) (L : Fin 2 → ℝ) (M : Fin 2 → ℕ)

/-- Work of the vortex form on the grid. -/
theorem power_vortex2 (hL : ∀ i, 0 < L i) (w0 : RModes N → ℂ) (rhs U E : SArr 2 (RModes N)) :
    power (rweight N) E (conv2DVortex w0 rhs U (rspace N M) (scaledWaves N L)) =
      gridMean L M fun x => ∑ i, fn N L (E i) x * turn2 (fun j => fn N L (U j) x) (fn N L (vort2 (scaledWaves N L) U) x) i := by
  have hadj : Adjoint (rweight N) (1 / Fintype.card (Grid M)) (rspace N M).forward (rspace N M).backward := dft_adjoint (kernel (waves N) M) (rweight N)
  have e := conv2D_eq w0 rhs U (rspace N M) (scaledWaves N L)
  have hv : cross2_2d w0 (scaledWaves N L) U = vort2 (scaledWaves N L) U := cross2_2d_eq _ _ _
  rw [gridMean_sum]
  simp only [power, Fin.sum_univ_two, e.1, e.2, hv]
  rw [hadj, hadj, gridMean, gridMean]
  congr 1 <;> congr 1 <;> refine Finset.sum_congr rfl fun x _ => ?_ <;>
    simp only [C83_grid N L M (fun i => (hL i).ne'), turn2, if_true, one_ne_zero, if_false]

theorem vort2_sub (K : Fin 2 → RModes N → ℝ) (a b : SArr 2 (RModes N)) : vort2 K (fun i k => a i k - b i k) = fun k => vort2 K a k - vort2 K b k := by
  funext k
  simp only [vort2]
  ring

theorem vort2_unmasked {a : SArr 2 (RModes N)} (h : ∀ i, Unmasked N (a i)) : Unmasked N (vort2 (scaledWaves N L) a) := fun k hk => by
  simp only [vort2, h _ k hk]
  ring

theorem vort2_real {a : SArr 2 (RModes N)} (h : ∀ i, IsReal N (a i)) : IsReal N (vort2 (scaledWaves N L) a) := fun k k' hk => by
  simp only [vort2, h _ k k' hk, scaledWaves, hk, map_mul, map_sub, conj_I, conj_ofReal]
  push_cast
  ring

/-- The vorticity as derivatives. -/
theorem fn_vort2 (a : SArr 2 (RModes N)) (x : Fin 2 → ℝ) :
    fn N L (vort2 (scaledWaves N L) a) x = pderiv 0 (fn N L (a 1)) x - pderiv 1 (fn N L (a 0)) x := by
  simp only [fn, pderiv_trigField]
  rw [← fn_sub]
  congr 1
  funext k
  simp only [vort2, Spec.deriv]
  ring

/-- Pointwise: work of the vortex form on the error. -/
theorem turn2_work {V θ g : ℝ} (hθ : 0 < θ) (e v : Fin 2 → ℝ) (w z : ℝ) (h : Fin 2 → ℝ) (hv : ∀ i, |v i| ≤ V) (hg : ∀ i, |turn2 v w i - h i| ≤ g) :
    |∑ i, e i * turn2 (fun j => v j - e j) (w - z) i - ∑ i, e i * h i| ≤
      (1 / 2 + V ^ 2 / θ) * (∑ i, e i ^ 2) + θ / 2 * z ^ 2 + g ^ 2 := by
  have hg0 : 0 ≤ g := (abs_nonneg _).trans (hg 0)
  have key : ∑ i, e i * turn2 (fun j => v j - e j) (w - z) i - ∑ i, e i * h i =
      ∑ i, e i * (turn2 v w i - h i) + z * (e 1 * v 0 - e 0 * v 1) := by
    simp only [Fin.sum_univ_two, turn2, if_true, one_ne_zero, if_false]
    ring
  have q1 : ∀ i, |e i * (turn2 v w i - h i)| ≤ 1 / 2 * e i ^ 2 + 1 / 2 * g ^ 2 := fun i => by
    have h7 : (turn2 v w i - h i) ^ 2 ≤ g ^ 2 := by rw [← sq_abs]; exact pow_le_pow_left₀ (abs_nonneg _) (hg i) 2
    rw [abs_le]
    constructor <;> nlinarith [sq_nonneg (e i + (turn2 v w i - h i)), sq_nonneg (e i - (turn2 v w i - h i))]
  have q2 : |z * (e 1 * v 0 - e 0 * v 1)| ≤ θ / 2 * z ^ 2 + 1 / (2 * θ) * (2 * V ^ 2 * (e 0 ^ 2 + e 1 ^ 2)) := by
    obtain ⟨c, hc⟩ : ∃ c, c = e 1 * v 0 - e 0 * v 1 := ⟨_, rfl⟩
    rw [← hc]
    have h7 : c ^ 2 ≤ 2 * V ^ 2 * (e 0 ^ 2 + e 1 ^ 2) := by
      have a1 : v 0 ^ 2 ≤ V ^ 2 := by rw [← sq_abs]; exact pow_le_pow_left₀ (abs_nonneg _) (hv _) 2
      have a2 : v 1 ^ 2 ≤ V ^ 2 := by rw [← sq_abs]; exact pow_le_pow_left₀ (abs_nonneg _) (hv _) 2
      have b1 := mul_le_mul_of_nonneg_left a1 (sq_nonneg (e 1))
      have b2 := mul_le_mul_of_nonneg_left a2 (sq_nonneg (e 0))
      rw [hc]
      nlinarith [sq_nonneg (e 1 * v 0 + e 0 * v 1)]
    have h8 := mul_le_mul_of_nonneg_left h7 (by positivity : 0 ≤ 1 / (2 * θ))
    have e1 : θ / 2 * z ^ 2 + 1 / (2 * θ) * c ^ 2 + z * c = (θ * z + c) ^ 2 / (2 * θ) := by field_simp; ring
    have e2 : θ / 2 * z ^ 2 + 1 / (2 * θ) * c ^ 2 - z * c = (θ * z - c) ^ 2 / (2 * θ) := by field_simp; ring
    have p1 : 0 ≤ (θ * z + c) ^ 2 / (2 * θ) := by positivity
    have p2 : 0 ≤ (θ * z - c) ^ 2 / (2 * θ) := by positivity
    rw [abs_le]
    constructor <;> linarith
  rw [key]
  refine (abs_add_le _ _).trans ((add_le_add ((Finset.abs_sum_le_sum_abs _ _).trans (Finset.sum_le_sum fun i _ => q1 i)) q2).trans_eq ?_)
  simp only [Fin.sum_univ_two]
  field_simp
  ring

/-- The work of the vortex form of `v - E` on `E`, on any grid that resolves the modes. -/
theorem vortex_work2 (hN : ∀ i, 0 < N i) (hL : ∀ i, 0 < L i) (hNM : ∀ i, N i ≤ M i) {V θ g : ℝ} (hθ : 0 < θ) {U E v h : SArr 2 (RModes N)}
    (hE : E = fun i k => v i k - U i k) (hEm : ∀ i, Unmasked N (E i)) (hEr : ∀ i, IsReal N (E i))
    (hv : ∀ i x, |fn N L (v i) x| ≤ V)
    (hg : ∀ i x, |turn2 (fun j => fn N L (v j) x) (fn N L (vort2 (scaledWaves N L) v) x) i - fn N L (h i) x| ≤ g)
    (w0 : RModes N → ℂ) (rhs : SArr 2 (RModes N)) :
    |power (rweight N) E (conv2DVortex w0 rhs U (rspace N M) (scaledWaves N L)) - power (rweight N) h E| ≤
      (1 / 2 + V ^ 2 / θ) * power (rweight N) E E +
        θ / 2 * Spec.inner (rweight N) (vort2 (scaledWaves N L) E) (vort2 (scaledWaves N L) E) + g ^ 2 := by
  have hM : ∀ i, 0 < M i := fun i => (hN i).trans_le (hNM i)
  have hUE : U = fun i k => v i k - E i k := by rw [hE]; funext i k; ring
  have hcU := vort2_sub N (scaledWaves N L) v E
  rw [← hUE] at hcU
  have hpt : ∀ x, |∑ i, fn N L (E i) x * turn2 (fun j => fn N L (U j) x) (fn N L (vort2 (scaledWaves N L) U) x) i - ∑ i, fn N L (E i) x * fn N L (h i) x| ≤
      (1 / 2 + V ^ 2 / θ) * (∑ i, fn N L (E i) x ^ 2) + θ / 2 * fn N L (vort2 (scaledWaves N L) E) x ^ 2 + g ^ 2 := fun x => by
    have := turn2_work hθ (fun i => fn N L (E i) x) (fun i => fn N L (v i) x) (fn N L (vort2 (scaledWaves N L) v) x)
      (fn N L (vort2 (scaledWaves N L) E) x) (fun i => fn N L (h i) x) (fun i => hv i x) (fun i => hg i x)
    have e1 : (fun j => fn N L (U j) x) = fun j => fn N L (v j) x - fn N L (E j) x := funext fun j => by
      rw [hUE]; exact fn_sub _ _ _ _ _
    have e2 : fn N L (vort2 (scaledWaves N L) U) x = fn N L (vort2 (scaledWaves N L) v) x - fn N L (vort2 (scaledWaves N L) E) x := by
      rw [hcU]; exact fn_sub _ _ _ _ _
    rw [e1, e2]
    exact this
  have m1 : gridMean L M (fun x => ∑ i, fn N L (E i) x ^ 2) = power (rweight N) E E := by
    rw [← gridMean_power N L M hN hL hNM E hEm hEr]
    simp only [sq]
  have m2 : gridMean L M (fun x => fn N L (vort2 (scaledWaves N L) E) x ^ 2) =
      Spec.inner (rweight N) (vort2 (scaledWaves N L) E) (vort2 (scaledWaves N L) E) := by
    rw [← gridMean_inner N L M hN hL hNM _ (vort2_unmasked N L hEm) (vort2_real N L hEr)]
    simp only [sq]
  have m3 : gridMean L M (fun x => ∑ i, fn N L (E i) x * fn N L (h i) x) = power (rweight N) h E := by
    rw [← gridMean_power N L M hN hL hNM h hEm hEr]
    simp only [mul_comm]
  have m4 : gridMean L M (fun x => (1 / 2 + V ^ 2 / θ) * (∑ i, fn N L (E i) x ^ 2) + θ / 2 * fn N L (vort2 (scaledWaves N L) E) x ^ 2 + g ^ 2) =
      (1 / 2 + V ^ 2 / θ) * power (rweight N) E E + θ / 2 * Spec.inner (rweight N) (vort2 (scaledWaves N L) E) (vort2 (scaledWaves N L) E) + g ^ 2 := by
    rw [gridMean_add L M (fun x => (1 / 2 + V ^ 2 / θ) * (∑ i, fn N L (E i) x ^ 2) + θ / 2 * fn N L (vort2 (scaledWaves N L) E) x ^ 2),
      gridMean_add L M (fun x => (1 / 2 + V ^ 2 / θ) * (∑ i, fn N L (E i) x ^ 2)), gridMean_const_mul, gridMean_const_mul, gridMean_const L M hM, m1, m2]
  rw [power_vortex2 N L M hL w0 rhs U E, ← m3, ← m4, abs_le]
  constructor
  · have := gridMean_mono L M fun x => (neg_le_sub_iff_le_add.1 (abs_le.1 (hpt x)).1)
    rw [gridMean_add] at this
    linarith
  · have := gridMean_mono L M fun x => (sub_le_iff_le_add.1 (abs_le.1 (hpt x)).2)
    rw [gridMean_add] at this
    linarith

/-- The enstrophy is at most the dissipation. -/
theorem vort2_le_grad (hN : ∀ i, 0 < N i) (hL : ∀ i, 0 < L i) {E : SArr 2 (RModes N)} (hEm : ∀ i, Unmasked N (E i)) (hEr : ∀ i, IsReal N (E i)) :
    Spec.inner (rweight N) (vort2 (scaledWaves N L) E) (vort2 (scaledWaves N L) E) ≤ boxMean L (fun x => ∑ i, ∑ j, pderiv j (fn N L (E i)) x ^ 2) := by
  have hdm : ∀ i j, Unmasked N (Spec.deriv (scaledWaves N L) j (E i)) := fun i j k hk => by rw [Spec.deriv, hEm i k hk, mul_zero]
  have hdr : ∀ i j, IsReal N (Spec.deriv (scaledWaves N L) j (E i)) := fun i j k k' hk => by
    simp only [Spec.deriv, hEr i k k' hk, scaledWaves, hk, map_mul, conj_I, conj_ofReal]
    push_cast
    ring
  have hfn : ∀ a, Continuous (fn N L a) := fun a => trigField_continuous _ _ _
  have e : ∀ i j, pderiv j (fn N L (E i)) = fn N L (Spec.deriv (scaledWaves N L) j (E i)) := fun i j => by
    rw [fn, pderiv_trigField]
  simp only [e]
  rw [boxMean_sum L _ fun i => continuous_finsetSum _ fun j _ => (hfn _).fun_pow 2]
  have e2 : ∀ i, boxMean L (fun x => ∑ j, fn N L (Spec.deriv (scaledWaves N L) j (E i)) x ^ 2) =
      ∑ j, Spec.inner (rweight N) (Spec.deriv (scaledWaves N L) j (E i)) (Spec.deriv (scaledWaves N L) j (E i)) := fun i => by
    rw [boxMean_sum L _ fun j => (hfn _).fun_pow 2]
    refine Finset.sum_congr rfl fun j _ => ?_
    rw [← mean_inner N hN L hL _ _ (hdm i j) (hdm i j) (hdr i j)]
    simp only [sq]
  simp only [e2, Spec.inner]
  simp only [Finset.sum_comm (s := (Finset.univ : Finset (Fin 2))) (t := (Finset.univ : Finset (RModes N)))]
  refine Finset.sum_le_sum fun k _ => ?_
  have hw := (rweight_pos N k).le
  have q : ∀ a : ℂ, ((starRingEnd ℂ) a * a).re = a.re ^ 2 + a.im ^ 2 := fun a => by simp [mul_re]; ring
  simp only [q, ← Finset.mul_sum]
  refine mul_le_mul_of_nonneg_left ?_ hw
  simp only [Fin.sum_univ_two, vort2, Spec.deriv, mul_re, mul_im, sub_re, sub_im, I_re, I_im, ofReal_re, ofReal_im]
  nlinarith [sq_nonneg (scaledWaves N L 0 k * (E 0 k).re + scaledWaves N L 1 k * (E 1 k).re),
    sq_nonneg (scaledWaves N L 0 k * (E 0 k).im + scaledWaves N L 1 k * (E 1 k).im)]

end

/-! ## Truncation error of the vortex form -/

section
variable {L : Fin 2 → ℝ}

/-- Vorticity of a function. -/
noncomputable def rot2 (u : Fin 2 → (Fin 2 → ℝ) → ℝ) (x : Fin 2 → ℝ) : ℝ := pderiv 0 (u 1) x - pderiv 1 (u 0) x

theorem turn2_sub_le {V W a b : ℝ} (v v' : Fin 2 → ℝ) (w w' : ℝ) (hv : ∀ i, |v i| ≤ V) (hw : |w'| ≤ W) (ha : ∀ i, |v' i - v i| ≤ a) (hb : |w' - w| ≤ b)
    (i : Fin 2) : |turn2 v w i - turn2 v' w' i| ≤ V * b + W * a := by
  have hV0 : 0 ≤ V := (abs_nonneg _).trans (hv 0)
  have q : ∀ i, |v i * w - v' i * w'| ≤ V * b + W * a := fun i => by
    have e : v i * w - v' i * w' = -(v i * (w' - w)) - w' * (v' i - v i) := by ring
    rw [e]
    refine (abs_sub _ _).trans (add_le_add ?_ ?_)
    · rw [abs_neg, abs_mul]
      exact mul_le_mul (hv i) hb (abs_nonneg _) hV0
    · rw [abs_mul]
      exact mul_le_mul hw (ha i) (abs_nonneg _) ((abs_nonneg _).trans hw)
  unfold turn2
  split_ifs
  · exact q 1
  · have e : -v 0 * w - -v' 0 * w' = -(v 0 * w - v' 0 * w') := by ring
    rw [e, abs_neg]
    exact q 0

/-- The vortex form of the truncated series against the truncated series of the vortex form, at every point. -/
theorem vortex_consistency2 (hL : ∀ i, 0 < L i) {T : ℝ} {u : ℝ → Fin 2 → (Fin 2 → ℝ) → ℝ} (hs : ∀ i, SmoothField fun t => u t i)
    (hp : ∀ t i, BoxPeriodic L (u t i)) (s : ℕ) :
    ∃ V G, 0 ≤ V ∧ 0 ≤ G ∧ ∀ (N : Fin 2 → ℕ), (∀ i, 0 < N i) → ∀ K : ℝ, 0 ≤ K → (∀ i, K ≤ Real.pi * N i / L i) → ∀ t ∈ Set.Icc 0 T,
      ∃ h : SArr 2 (RModes N), (∀ i x, |fn N L (proj N L (u t i)) x| ≤ V) ∧
        ∀ i x, |turn2 (fun j => fn N L (proj N L (u t j)) x) (fn N L (vort2 (scaledWaves N L) fun i => proj N L (u t i)) x) i - fn N L (h i) x| ≤
          G * (1 / (1 + K ^ 2) ^ s) := by
  have hsp : ∀ t i, ContDiff ℝ ∞ (u t i) := fun t i => (hs i).space t
  have hsg : ∀ i j, SmoothField fun t => pderiv j (u t i) := fun i j => (hs i).pderiv j
  have hpg : ∀ t i j, BoxPeriodic L (pderiv j (u t i)) := fun t i j => (hp t i).pderiv j
  have hsr : SmoothField fun t => rot2 (u t) := ContDiff.sub (hsg _ _) (hsg _ _)
  have hpr : ∀ t, BoxPeriodic L (rot2 (u t)) := fun t j x => by simp only [rot2, hpg t _ _ j x]
  have hsw : ∀ i, SmoothField fun t x => turn2 (fun j => u t j x) (rot2 (u t) x) i := fun i => by
    unfold turn2
    split_ifs
    · exact ContDiff.mul (hs _) hsr
    · exact ContDiff.mul (ContDiff.neg (hs _)) hsr
  have hpw : ∀ t i, BoxPeriodic L fun x => turn2 (fun j => u t j x) (rot2 (u t) x) i := fun t i j x => by
    simp only [turn2, hp t _ j x, hpr t j x]
  obtain ⟨C0, hC0, c0⟩ := exists_common (P := fun (i : Fin 2) B => ∀ t ∈ Set.Icc 0 T, ∀ m,
      (1 + ∑ j, (kappa L m j) ^ 2) ^ (1 + 1) * ‖coef L (u t i) m‖ ≤ B)
    (fun i a b hab H t ht m => (H t ht m).trans hab) fun i => coef_decay hL (hs i) (fun t => hp t i) (1 + 1) T
  obtain ⟨C1, hC1, c1⟩ := exists_common (P := fun (i : Fin 2) B => ∀ t ∈ Set.Icc 0 T, ∀ m,
      (1 + ∑ j, (kappa L m j) ^ 2) ^ (1 + 1 + s) * ‖coef L (u t i) m‖ ≤ B)
    (fun i a b hab H t ht m => (H t ht m).trans hab) fun i => coef_decay hL (hs i) (fun t => hp t i) (1 + 1 + s) T
  obtain ⟨C2, hC2, c2⟩ := exists_common (P := fun (_ : Fin 2) B => ∀ t ∈ Set.Icc 0 T, ∀ m,
      (1 + ∑ j, (kappa L m j) ^ 2) ^ (1 + 1 + s) * ‖coef L (rot2 (u t)) m‖ ≤ B)
    (fun i a b hab H t ht m => (H t ht m).trans hab) fun i => coef_decay hL hsr (fun t => hpr t) (1 + 1 + s) T
  obtain ⟨C3, hC3, c3⟩ := exists_common (P := fun (_ : Fin 2) B => ∀ t ∈ Set.Icc 0 T, ∀ m,
      (1 + ∑ j, (kappa L m j) ^ 2) ^ (1 + 1) * ‖coef L (rot2 (u t)) m‖ ≤ B)
    (fun i a b hab H t ht m => (H t ht m).trans hab) fun i => coef_decay hL hsr (fun t => hpr t) (1 + 1) T
  obtain ⟨C4, hC4, c4⟩ := exists_common (P := fun (i : Fin 2) B => ∀ t ∈ Set.Icc 0 T, ∀ m,
      (1 + ∑ j, (kappa L m j) ^ 2) ^ (1 + 1 + s) * ‖coef L (fun x => turn2 (fun j => u t j x) (rot2 (u t) x) i) m‖ ≤ B)
    (fun i a b hab H t ht m => (H t ht m).trans hab) fun i => coef_decay hL (hsw i) (fun t => hpw t i) (1 + 1 + s) T
  set M := ∑' m, majorant L m with hM
  have hM0 : 0 ≤ M := tsum_nonneg (majorant_nonneg L)
  refine ⟨2 * (C0 * M), ((2 * (C0 * M)) * (C2 * M) + (3 * (C3 * M)) * (C1 * M)) + C4 * M, by positivity, by positivity, fun N hN K hK hKN t ht => ?_⟩
  have hV : ∀ i x, |fn N L (proj N L (u t i)) x| ≤ 2 * (C0 * M) := fun i x => proj_bound N L hL (c0 i t ht) x
  obtain ⟨ka, hka⟩ : ∃ ka, ka = 1 / (1 + K ^ 2) ^ s := ⟨_, rfl⟩
  have e1 : ∀ c, c / (1 + K ^ 2) ^ s * M = c * M * ka := fun c => by rw [hka]; ring
  rw [← hka]
  have hcurl : ∀ x, fn N L (vort2 (scaledWaves N L) fun i => proj N L (u t i)) x = fn N L (proj N L (rot2 (u t))) x := fun x => by
    rw [fn_vort2, pderiv_proj N L hL ((hsp t _).of_le (by exact_mod_cast le_top)) (hp t _), pderiv_proj N L hL ((hsp t _).of_le (by exact_mod_cast le_top)) (hp t _),
      ← fn_sub]
    congr 1
    funext k
    have hc : ∀ i j, Continuous (pderiv j (u t i)) := fun i j => ((hsg i j).space t).continuous
    have := coef_sub L (hc 1 0) (hc 0 1)
    simp only [proj, rot2]
    split_ifs
    · exact (this _).symm
    · rw [sub_zero]
  refine ⟨fun i => proj N L fun x => turn2 (fun j => u t j x) (rot2 (u t) x) i, hV, fun i x => ?_⟩
  rw [hcurl]
  have hu := fun i => proj_sup N L hN hL (hsp t i).continuous (hp t i) (c1 i t ht) hK hKN x
  have hr := proj_sup N L hN hL (hsr.space t).continuous (hpr t) (c2 0 t ht) hK hKN x
  have hw := proj_sup N L hN hL ((hsw i).space t).continuous (hpw t i) (c4 i t ht) hK hKN x
  have hW : |rot2 (u t) x| ≤ 3 * (C3 * M) := by
    have h1 := proj_sup N L hN hL (hsr.space t).continuous (hpr t) (s := 0) (c3 0 t ht) hK hKN x
    have h2 := proj_bound N L hL (c3 0 t ht) x
    rw [pow_zero, div_one] at h1
    have h3 := abs_add_le (rot2 (u t) x - fn N L (proj N L (rot2 (u t))) x) (fn N L (proj N L (rot2 (u t))) x)
    rw [sub_add_cancel] at h3
    linarith
  simp only [← hM, e1] at hu hr hw
  have h1 := turn2_sub_le (fun j => fn N L (proj N L (u t j)) x) (fun j => u t j x) (fn N L (proj N L (rot2 (u t))) x) (rot2 (u t) x)
    (fun i => hV i x) hW hu hr i
  refine (abs_sub_le _ (turn2 (fun j => u t j x) (rot2 (u t) x) i) _).trans ((add_le_add h1 hw).trans_eq ?_)
  ring

/-- The work that aliasing does on the error, for two grids that resolve the modes. -/
theorem alias_work2 (hL : ∀ i, 0 < L i) {T nu : ℝ} (hnu : 0 < nu) {u : ℝ → Fin 2 → (Fin 2 → ℝ) → ℝ} (hs : ∀ i, SmoothField fun t => u t i)
    (hp : ∀ t i, BoxPeriodic L (u t i)) (s : ℕ) :
    ∃ α β, 0 ≤ α ∧ 0 ≤ β ∧ ∀ (N M M' : Fin 2 → ℕ), (∀ i, 0 < N i) → (∀ i, N i ≤ M i) → (∀ i, N i ≤ M' i) → ∀ K : ℝ, 0 ≤ K → (∀ i, K ≤ Real.pi * N i / L i) →
      ∀ t ∈ Set.Icc 0 T, ∀ U E : SArr 2 (RModes N), (E = fun i k => proj N L (u t i) k - U i k) → (∀ i, Unmasked N (E i)) → (∀ i, IsReal N (E i)) →
      ∀ (w0 w0' : RModes N → ℂ) (rhs rhs' : SArr 2 (RModes N)),
      power (rweight N) E (conv2DVortex w0' rhs' U (rspace N M') (scaledWaves N L)) - power (rweight N) E (conv2DVortex w0 rhs U (rspace N M) (scaledWaves N L)) ≤
        α * power (rweight N) E E + nu * boxMean L (fun x => ∑ i, ∑ j, pderiv j (fn N L (E i)) x ^ 2) + β * (1 / (1 + K ^ 2) ^ s) := by
  obtain ⟨V, G, hV, hG, H⟩ := vortex_consistency2 hL (T := T) hs hp s
  refine ⟨1 + 2 * V ^ 2 / nu, 2 * G ^ 2, by positivity, by positivity, fun N M M' hN hNM hNM' K hK hKN t ht U E hE hEm hEr w0 w0' rhs rhs' => ?_⟩
  obtain ⟨h, h1, h2⟩ := H N hN K hK hKN t ht
  have w1 := vortex_work2 N L M hN hL hNM hnu (v := fun i => proj N L (u t i)) hE hEm hEr h1 h2 w0 rhs
  have w2 := vortex_work2 N L M' hN hL hNM' hnu (v := fun i => proj N L (u t i)) hE hEm hEr h1 h2 w0' rhs'
  have hd := mul_le_mul_of_nonneg_left (vort2_le_grad N L hN hL hEm hEr) hnu.le
  obtain ⟨ka, hka⟩ : ∃ ka, ka = 1 / (1 + K ^ 2) ^ s := ⟨_, rfl⟩
  have hka0 : 0 ≤ ka := by rw [hka]; positivity
  have hka1 : ka ≤ 1 := by
    rw [hka]
    exact div_le_one_of_le₀ (one_le_pow₀ (by nlinarith)) (by positivity)
  rw [← hka] at w1 w2 ⊢
  have hg : (G * ka) ^ 2 ≤ G ^ 2 * ka := by
    rw [mul_pow]
    exact mul_le_mul_of_nonneg_left (by nlinarith) (sq_nonneg _)
  have a1 := (abs_le.1 w1).1
  have a2 := (abs_le.1 w2).2
  have e : (1 + 2 * V ^ 2 / nu) * power (rweight N) E E = 2 * ((1 / 2 + V ^ 2 / nu) * power (rweight N) E E) := by ring
  rw [e]
  linarith

end

end SpectralDNS.Torus

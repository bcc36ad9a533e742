import Verif.Lemmas.DemoStarts
import Verif.Spec.DemoStarts
import Verif.Lemmas.Trig
import Mathlib.Topology.Order.OrderClosed
import Mathlib.Topology.Algebra.Field

/-!
# C89: the starting fields of the Kelvin-Helmholtz and vortex demos
-/

namespace SpectralDNS.Demos

open Periodic Complex

variable {N : Fin 2 → ℕ}

theorem dot_two {ι : Type*} (K : Fin 2 → ι → ℝ) (u : SArr 2 ι) (k : ι) : Spec.dot (Spec.at' K k) (Spec.at' u k) = K 0 k * u 0 k + K 1 k * u 1 k := by
  simp only [Spec.dot, Spec.at', Fin.sum_univ_two]

theorem K2_two {ι : Type*} (K : Fin 2 → ι → ℝ) (k : ι) : (K2 K k : ℂ) = K 0 k * K 0 k + K 1 k * K 1 k := by
  simp only [K2, Fin.sum_univ_two]; push_cast; ring

theorem index_zero {n : ℕ} {N : Fin (n + 1) → ℕ} (k : RModes N) : (∀ i, waves N i k = 0) ↔ ∀ i, (k i : ℕ) = 0 := by
  refine forall_congr' fun i => ?_
  have hk := (k i).isLt
  unfold waves
  by_cases hi : i = Fin.last n
  · rw [if_pos hi]; omega
  · rw [if_neg hi]
    simp only [rdim, if_neg hi] at hk
    split_ifs <;> omega

theorem scaled_zero {n : ℕ} {N : Fin (n + 1) → ℕ} (L : Fin (n + 1) → ℝ) (hL : ∀ i, L i ≠ 0) (i : Fin (n + 1)) (k : RModes N) :
    scaledWaves N L i k = 0 ↔ waves N i k = 0 := by
  simp [scaledWaves, Real.pi_ne_zero, hL i]

theorem mesh_update {n : ℕ} {N : Fin n → ℕ} (L : Fin n → ℝ) (i j : Fin n) (h : j ≠ i) (p : Grid N) (a : Fin (N i)) :
    mesh N L j (Function.update p i a) = mesh N L j p := by
  simp [mesh, Function.update_of_ne h]

theorem khU0_const (L : Fin 2 → ℝ) (U1 U2 delta : ℝ) (p : Grid N) (a : Fin (N 0)) :
    khU0 L U1 U2 delta (Function.update p 0 a) = khU0 L U1 U2 delta p := by
  have h : Function.update p 0 a 1 = p 1 := Function.update_of_ne (by decide) _ _
  simp only [khU0, mesh_update L 0 1 (by decide), h]

theorem bqU0_const (L : Fin 2 → ℝ) (delta : ℝ) (p : Grid N) (a : Fin (N 0)) : bqU0 L delta (Function.update p 0 a) = bqU0 L delta p := by
  have h : Function.update p 0 a 1 = p 1 := Function.update_of_ne (by decide) _ _
  simp only [bqU0, mesh_update L 0 1 (by decide), h]

theorem khU1_const (L : Fin 2 → ℝ) (A : ℝ) (p : Grid N) (a : Fin (N 1)) : khU1 L A (Function.update p 1 a) = khU1 L A p := by
  simp only [khU1, mesh_update L 1 0 (by decide)]

/-- A velocity whose first component does not change along the first axis and whose second does not change along the second is
divergence free. -/
theorem crossed_solenoidal (hN : ∀ i, 0 < N i) (L : Fin 2 → ℝ) (f g : Grid N → ℝ) (hf : ∀ p a, f (Function.update p 0 a) = f p)
    (hg : ∀ p a, g (Function.update p 1 a) = g p) (k : RModes N) :
    (scaledWaves N L 0 k : ℂ) * (rspace N N).forward f k + scaledWaves N L 1 k * (rspace N N).forward g k = 0 := by
  rw [forward_const_mul hN L 0 f hf k, forward_const_mul hN L 1 g hg k, add_zero]

open Classical in
/-- C89.  The perturbation `A sin(2x)` of both Kelvin-Helmholtz demos in the box of side `2π`: two conjugate coefficients, at the wavenumbers
`(2, 0)` and `(-2, 0)`. -/
theorem C89_perturbation (L : Fin 2 → ℝ) (hL : L 0 = 2 * Real.pi) (h0 : 4 < N 0) (h1 : 0 < N 1) (A : ℝ) (k : RModes N) :
    (rspace N N).forward (khU1 L A) k =
      if waves N 0 k = 2 ∧ waves N 1 k = 0 then -(I * A / 2) else if waves N 0 k = -2 ∧ waves N 1 k = 0 then I * A / 2 else 0 := by
  have hN : ∀ i, 0 < N i := fun i => by fin_cases i <;> simp <;> omega
  have hf : ∀ x : Grid N, (khU1 L A x : ℂ) = trig N (fun b : Bool => if b then ![2, 0] else ![-2, 0])
      (fun b => if b then -(I * A / 2) else I * A / 2) x := fun x => by
    have hN0 : (N 0 : ℂ) ≠ 0 := by exact_mod_cast (hN 0).ne'
    simp only [trig, Fintype.sum_bool, expz, Fin.sum_univ_two, if_true, Bool.false_eq_true, if_false, Matrix.cons_val_zero, Matrix.cons_val_one]
    have e1 : 2 * (Real.pi : ℂ) * I * (((2 : ℤ) : ℂ) * ((x 0 : ℕ) : ℂ) / (N 0 : ℂ) + ((0 : ℤ) : ℂ) * ((x 1 : ℕ) : ℂ) / (N 1 : ℂ)) =
        (2 * (2 * (Real.pi : ℂ) * ((x 0 : ℕ) : ℂ) / (N 0 : ℂ))) * I := by push_cast; ring
    have e2 : 2 * (Real.pi : ℂ) * I * (((-2 : ℤ) : ℂ) * ((x 0 : ℕ) : ℂ) / (N 0 : ℂ) + ((0 : ℤ) : ℂ) * ((x 1 : ℕ) : ℂ) / (N 1 : ℂ)) =
        -(2 * (2 * (Real.pi : ℂ) * ((x 0 : ℕ) : ℂ) / (N 0 : ℂ))) * I := by push_cast; ring
    rw [e1, e2]
    unfold khU1 mesh
    rw [hL]
    push_cast
    rw [Complex.sin]
    ring
  rw [forward_trig N N (fun _ => le_rfl) _ _ (fun b i => ?_) _ hf hN, coeffs]
  · simp only [Fintype.sum_bool, if_true, Bool.false_eq_true, if_false]
    have e : ∀ a : ℤ, ((![a, 0] : Fin 2 → ℤ) = wvec N k) ↔ waves N 0 k = a ∧ waves N 1 k = 0 := fun a => by
      constructor
      · intro h
        exact ⟨(congrFun h 0).symm, (congrFun h 1).symm⟩
      · rintro ⟨h, h'⟩
        funext i
        fin_cases i
        · exact h.symm
        · exact h'.symm
    simp only [e]
    by_cases ha : waves N 0 k = 2 ∧ waves N 1 k = 0
    · rw [if_pos ha, if_pos ha, if_neg (fun h => by omega), add_zero]
    · rw [if_neg ha, if_neg ha, zero_add]
  · cases b <;> fin_cases i <;> simp <;> omega

/-! ## KelvinHelmholtz.py -/

/-- C89.  The start of the Kelvin-Helmholtz demo, on every grid and for every choice of the parameters: the transform of the array with
the mean and the Nyquist modes removed.  The projection changes nothing: the array is divergence free already. -/
theorem C89_kelvin_helmholtz (hN : ∀ i, 0 < N i) (L : Fin 2 → ℝ) (U1 U2 delta A : ℝ) (i : Fin 2) (k : RModes N) :
    khInit L U1 U2 delta A i k =
      if nyquistMask N k = true ∧ ∃ j, waves N j k ≠ 0 then (rspace N N).forward ((![khU0 L U1 U2 delta, khU1 L A] : PArr 2 (Grid N)) i) k else 0 := by
  have hz := index_zero k
  have hs := crossed_solenoidal hN L (khU0 L U1 U2 delta) (khU1 L A) (khU0_const L U1 U2 delta) (khU1_const L A) k
  simp only [khInit, khSettle, maskNyquist]
  by_cases hm : nyquistMask N k = true
  · by_cases h0 : ∀ j, waves N j k = 0
    · rw [if_pos (hz.1 h0), zero_mul, if_neg]
      rintro ⟨_, j, hj⟩
      exact hj (h0 j)
    · rw [if_neg fun h => h0 (hz.2 h), if_pos hm, if_pos ⟨hm, not_forall.1 h0⟩, mul_one]
      simp only [Matrix.cons_val_zero, Matrix.cons_val_one]
      rw [hs, zero_mul, sub_zero]
  · rw [if_neg hm, mul_zero, if_neg fun h => hm h.1]

/-- C89.  It is divergence free and has no mean. -/
theorem C89_kelvin_helmholtz_solenoidal (hN : ∀ i, 0 < N i) (L : Fin 2 → ℝ) (hL : ∀ i, L i ≠ 0) (U1 U2 delta A : ℝ) :
    Spec.Solenoidal (scaledWaves N L) (khInit L U1 U2 delta A) ∧ Spec.ZeroMean (scaledWaves N L) (khInit L U1 U2 delta A) := by
  refine ⟨fun k => ?_, fun k hk i => ?_⟩
  · have hs := crossed_solenoidal hN L (khU0 L U1 U2 delta) (khU1 L A) (khU0_const L U1 U2 delta) (khU1_const L A) k
    refine (dot_two _ _ k).trans ?_
    rw [C89_kelvin_helmholtz hN, C89_kelvin_helmholtz hN]
    by_cases h : nyquistMask N k = true ∧ ∃ j, waves N j k ≠ 0
    · rw [if_pos h, if_pos h]; exact hs
    · rw [if_neg h, if_neg h]; simp
  · rw [C89_kelvin_helmholtz hN, if_neg]
    rintro ⟨_, j, hj⟩
    exact hj ((scaled_zero L hL j k).1 (hk j))

/-- C89.  So every run of it stays divergence free. -/
theorem C89_kelvin_helmholtz_run {X : Type*} (hN : ∀ i, 0 < N i) (L : Fin 2 → ℝ) (hL : ∀ i, L i ≠ 0) (U1 U2 delta A : ℝ)
    (c : Ctx 2 (RModes N) X) (hK : c.K = scaledWaves N L) (hS : c.Source = 0)
    (conv : SArr 2 (RModes N) → SArr 2 (RModes N) → SArr 2 (RModes N)) (est : SArr 2 (RModes N) → SArr 2 (RModes N) → SArr 2 (RModes N) → PyF)
    (fuel : ℕ) (m : Method) (ds : List ℝ) (tstep : ℕ) (rhs : SArr 2 (RModes N)) (c' : Closure (SArr 2 (RModes N)))
    (h : runSteps (rhsNS c conv) est fuel m tstep ds (getintegrator rhs (khInit L U1 U2 delta A)) = some c') :
    Spec.Solenoidal (scaledWaves N L) c'.u0 := by
  rw [← hK]
  refine C02_divergence_free_preserved c conv (fun k => by simp [hS, Spec.dot, Spec.at']) est fuel m ds tstep rhs _ ?_ c' h
  rw [hK]
  exact (C89_kelvin_helmholtz_solenoidal hN L hL U1 U2 delta A).1

/-- C89.  On a box of height `2 pi` with a number of points divisible by four the four slices are the samples of a double shear layer. -/
theorem C89_kelvin_helmholtz_profile (L : Fin 2 → ℝ) (hL : L 1 = 2 * Real.pi) (h4 : 4 ∣ N 1) (U1 U2 delta : ℝ) (x : Grid N) :
    khU0 L U1 U2 delta x = Spec.doubleLayer U1 U2 delta (mesh N L 1 x) := by
  obtain ⟨m, hm⟩ := h4
  have hx := (x 1).isLt
  have hm0 : 0 < m := by omega
  have hmr : (0 : ℝ) < m := by exact_mod_cast hm0
  have hpi := Real.pi_pos
  have hy : mesh N L 1 x = Real.pi / 2 * ((x 1 : ℕ) / m) := by
    simp only [mesh, hL, hm]; push_cast; field_simp; ring
  have key : ∀ q : ℕ, (x 1 : ℕ) < q * m ↔ mesh N L 1 x < q * Real.pi / 2 := fun q => by
    rw [hy, show (q : ℝ) * Real.pi / 2 = Real.pi / 2 * q by ring, mul_lt_mul_iff_right₀ (by positivity), div_lt_iff₀ hmr]
    exact_mod_cast Iff.rfl
  have k1 : (x 1 : ℕ) < N 1 / 4 ↔ mesh N L 1 x < Real.pi / 2 := by
    rw [show N 1 / 4 = 1 * m by omega, key 1]; simp
  have k2 : (x 1 : ℕ) < N 1 / 2 ↔ mesh N L 1 x < Real.pi := by
    rw [show N 1 / 2 = 2 * m by omega, key 2]; simp
  have k3 : (x 1 : ℕ) < 3 * N 1 / 4 ↔ mesh N L 1 x < 3 * Real.pi / 2 := by
    rw [show 3 * N 1 / 4 = 3 * m by omega, key 3]; simp
  simp only [khU0, Spec.doubleLayer, k1, k2, k3]
  split_ifs <;> norm_num <;> ring_nf

/-- C89.  The double layer is continuous, also across the boundary of the box, and passes through the mean of the two velocities at the
layers. -/
theorem C89_layer (U1 U2 delta : ℝ) :
    Continuous (Spec.doubleLayer U1 U2 delta) ∧ Spec.doubleLayer U1 U2 delta 0 = Spec.doubleLayer U1 U2 delta (2 * Real.pi) ∧
      Spec.doubleLayer U1 U2 delta (Real.pi / 2) = (U1 + U2) / 2 ∧ Spec.doubleLayer U1 U2 delta (3 * Real.pi / 2) = (U1 + U2) / 2 := by
  have hpi := Real.pi_pos
  refine ⟨?_, ?_, ?_, ?_⟩
  · have e : Spec.doubleLayer U1 U2 delta = fun y =>
        if Real.pi / 2 ≤ y then (if Real.pi ≤ y then (if 3 * Real.pi / 2 ≤ y then U1 - (U1 - U2) / 2 * Real.exp (-(y - 3 * Real.pi / 2) / delta)
          else U2 + (U1 - U2) / 2 * Real.exp (-(3 * Real.pi / 2 - y) / delta)) else U2 + (U1 - U2) / 2 * Real.exp (-(y - Real.pi / 2) / delta))
        else U1 - (U1 - U2) / 2 * Real.exp (-(Real.pi / 2 - y) / delta) := by
      funext y
      simp only [Spec.doubleLayer, ← not_lt, ite_not]
    rw [e]
    refine Continuous.if_le (Continuous.if_le (Continuous.if_le ?_ ?_ continuous_const continuous_id ?_) ?_ continuous_const continuous_id ?_) ?_ continuous_const continuous_id ?_
    · fun_prop
    · fun_prop
    · intro y hy
      rw [← show _ = y from hy]
      norm_num; ring
    · fun_prop
    · intro y hy
      rw [← show _ = y from hy, if_neg (by linarith)]
      congr 4; ring
    · fun_prop
    · intro y hy
      rw [← show _ = y from hy, if_neg (by linarith)]
      norm_num; ring
  · simp only [Spec.doubleLayer]
    rw [if_pos (by linarith), if_neg (by linarith), if_neg (by linarith), if_neg (by linarith)]
    congr 4; ring
  · simp only [Spec.doubleLayer]
    rw [if_neg (by linarith), if_pos (by linarith)]
    norm_num; ring
  · simp only [Spec.doubleLayer]
    rw [if_neg (by linarith), if_neg (by linarith), if_neg (by linarith)]
    norm_num; ring

/-! ## KelvinHelmoltzBoussinesq.py -/

/-- C89.  The start of the Boussinesq demo is divergence free, and with the densities the demo uses (`rho1 + rho2 = 4`) the density field is
the first velocity component, point by point and mode by mode. -/
theorem C89_boussinesq (hN : ∀ i, 0 < N i) (L : Fin 2 → ℝ) (A delta rho1 rho2 : ℝ) :
    Spec.Solenoidal (scaledWaves N L) (bqInit (N := N) L A delta rho1 rho2).1 ∧
      (∀ x : Grid N, bqRho L delta rho1 rho2 x = bqU0 L delta x + (2 - (rho1 + rho2) / 2)) ∧
      (rho1 + rho2 = 4 → (bqInit (N := N) L A delta rho1 rho2).2 = (bqInit (N := N) L A delta rho1 rho2).1 0) := by
  have hr : ∀ x : Grid N, bqRho L delta rho1 rho2 x = bqU0 L delta x + (2 - (rho1 + rho2) / 2) := fun x => by
    simp only [bqRho, bqU0, show (2.0 : ℝ) = 2 by norm_num]
    split_ifs <;> ring
  refine ⟨fun k => ?_, hr, fun h => ?_⟩
  · refine (dot_two _ _ k).trans ?_
    exact crossed_solenoidal hN L (bqU0 L delta) (khU1 L A) (bqU0_const L delta) (khU1_const L A) k
  · have e : (bqRho L delta rho1 rho2 : Grid N → ℝ) = bqU0 L delta := by
      funext x; rw [hr x, h]; ring
    simp only [bqInit, e]
    rfl

/-- C89.  Every run of the Boussinesq demo stays divergence free. -/
theorem C89_boussinesq_run {X : Type*} (hN : ∀ i, 0 < N i) (L : Fin 2 → ℝ) (A delta rho1 rho2 : ℝ) (c : Ctx 2 (RModes N) X)
    (hK : c.K = scaledWaves N L) (Ri Pr : ℝ)
    (conv : SArr 2 (RModes N) × (RModes N → ℂ) → SArr 2 (RModes N) × (RModes N → ℂ) → SArr 2 (RModes N) × (RModes N → ℂ))
    (est : SArr 2 (RModes N) × (RModes N → ℂ) → SArr 2 (RModes N) × (RModes N → ℂ) → SArr 2 (RModes N) × (RModes N → ℂ) → PyF) (fuel : ℕ)
    (m : Method) (ds : List ℝ) (tstep : ℕ) (rhs : SArr 2 (RModes N) × (RModes N → ℂ)) (c' : Closure (SArr 2 (RModes N) × (RModes N → ℂ)))
    (h : runSteps (rhsBq c Ri Pr conv) est fuel m tstep ds (getintegrator rhs (bqInit L A delta rho1 rho2)) = some c') :
    Spec.Solenoidal (scaledWaves N L) c'.u0.1 := by
  rw [← hK]
  refine C13_divergence_free_preserved c Ri Pr conv est fuel m ds tstep rhs _ ?_ c' h
  rw [hK]
  exact (C89_boussinesq hN L A delta rho1 rho2).1

/-! ## Vortices2D.py -/

theorem KoK2_neg {n : ℕ} {N : Fin (n + 1) → ℕ} (L : Fin (n + 1) → ℝ) (i : Fin (n + 1)) (k k' : RModes N) (h : ∀ j, waves N j k' = -waves N j k) :
    K_over_K2 (scaledWaves N L) i k' = -K_over_K2 (scaledWaves N L) i k := by
  have h1 : ∀ j, scaledWaves N L j k' = -scaledWaves N L j k := fun j => by simp [scaledWaves, h j]
  have h2 : K2 (scaledWaves N L) k' = K2 (scaledWaves N L) k := by simp [K2, h1]
  simp only [K_over_K2, h1, h2, neg_div]

theorem fromVorticity_kept (hN : ∀ i, 0 < N i) (L : Fin 2 → ℝ) (w : Grid N → ℝ) (k : RModes N) (hk : nyquistMask N k = true) :
    fromVorticity (scaledWaves N L) w 0 k = I * K_over_K2 (scaledWaves N L) 1 k * (rspace N N).forward w k ∧
      fromVorticity (scaledWaves N L) w 1 k = -I * K_over_K2 (scaledWaves N L) 0 k * (rspace N N).forward w k := by
  constructor
  · refine forward_backward_kept hN _ (fun l l' _ hl => ?_) k hk
    rw [KoK2_neg L 1 l l' hl, rspace_forward_conj N N w l l' hl]
    simp
  · refine forward_backward_kept hN _ (fun l l' _ hl => ?_) k hk
    rw [KoK2_neg L 0 l l' hl, rspace_forward_conj N N w l l' hl]
    simp

/-- C89.  The start of Vortices2D, for every vorticity array: at the modes the mask keeps it is divergence free, has no mean, and its curl
is the vorticity but for its mean. -/
theorem C89_vortices2D (hN : ∀ i, 0 < N i) (L : Fin 2 → ℝ) (w : Grid N → ℝ) (w0 : RModes N → ℂ) (k : RModes N) (hk : nyquistMask N k = true) :
    let K := scaledWaves N L
    let u := fromVorticity K w
    Spec.dot (Spec.at' K k) (Spec.at' u k) = 0 ∧ ((∀ i, K i k = 0) → ∀ i, u i k = 0) ∧
      ((∃ i, K i k ≠ 0) → cross2_2d w0 K u k = (rspace N N).forward w k) := by
  intro K u
  obtain ⟨h0, h1⟩ := fromVorticity_kept hN L w k hk
  have hm : ∀ j, (K_over_K2 K j k : ℂ) * (K2 K k : ℂ) = (K j k : ℂ) := fun j => by rw [← ofReal_mul, KoK2_mul]
  have hc : (K 0 k : ℂ) * K_over_K2 K 1 k = K 1 k * K_over_K2 K 0 k := by
    simp only [K_over_K2]; push_cast; ring
  refine ⟨?_, fun hz i => ?_, fun hz => ?_⟩
  · refine (dot_two _ _ k).trans ?_
    simp only [u, K]
    rw [h0, h1]
    linear_combination I * (rspace N N).forward w k * hc
  · fin_cases i
    · simp only [u, Fin.zero_eta]; rw [h0, KoK2_zero _ k hz]; simp
    · simp only [u, Fin.mk_one]; rw [h1, KoK2_zero _ k hz]; simp
  · have hne : (K2 K k : ℂ) ≠ 0 := by
      obtain ⟨j, hj⟩ := hz
      exact fun h => hj ((K2_eq_zero K k).1 (by exact_mod_cast h) j)
    have hsum : (K 0 k : ℂ) * K_over_K2 K 0 k + K 1 k * K_over_K2 K 1 k = 1 := by
      apply mul_right_cancel₀ hne
      rw [one_mul, add_mul, mul_assoc, mul_assoc, hm, hm]
      exact (K2_two _ k).symm
    simp only [cross2_2d_eq, u]
    rw [h0, h1]
    linear_combination (rspace N N).forward w k * hsum + (-(K 0 k * K_over_K2 K 0 k + K 1 k * K_over_K2 K 1 k) * (rspace N N).forward w k) * I_mul_I

/-- C89.  The stream function it stores is that of the velocity: `u = (-d psi/dy, d psi/dx)` and its Laplacian is the curl, at every mode of
every divergence-free field without a mean. -/
theorem C89_stream (K : Fin 2 → RModes N → ℝ) (w : RModes N → ℂ) (u : SArr 2 (RModes N)) (hu : Spec.Solenoidal K u) (h0 : Spec.ZeroMean K u) (k : RModes N) :
    u 0 k = -(I * K 1 k * streamHat K w u k) ∧ u 1 k = I * K 0 k * streamHat K w u k ∧
      -(K2 K k : ℂ) * streamHat K w u k = cross2_2d w K u k := by
  have hd := hu k
  simp only [Spec.dot, Spec.at', Fin.sum_univ_two] at hd
  by_cases hk : K2 K k = 0
  · have hz := (K2_eq_zero K k).1 hk
    have := h0 k hz
    refine ⟨?_, ?_, ?_⟩ <;> simp [hz, this, hk, cross2_2d_eq]
  · have hne : (K2 K k : ℂ) ≠ 0 := by exact_mod_cast hk
    have hs : streamHat K w u k * (K2 K k : ℂ) = -(I * (K 0 k * u 1 k - K 1 k * u 0 k)) := by
      simp only [streamHat, cross2_2d_eq, if_neg hk]
      field_simp
    have hK := K2_two K k
    refine ⟨?_, ?_, ?_⟩
    · apply mul_right_cancel₀ hne
      rw [show -(I * K 1 k * streamHat K w u k) * (K2 K k : ℂ) = -(I * K 1 k) * (streamHat K w u k * (K2 K k : ℂ)) by ring, hs, hK]
      linear_combination (K 0 k : ℂ) * hd - (K 1 k : ℂ) * (K 0 k * u 1 k - K 1 k * u 0 k) * I_mul_I
    · apply mul_right_cancel₀ hne
      rw [show I * K 0 k * streamHat K w u k * (K2 K k : ℂ) = I * K 0 k * (streamHat K w u k * (K2 K k : ℂ)) by ring, hs, hK]
      linear_combination (K 1 k : ℂ) * hd + (K 0 k : ℂ) * (K 0 k * u 1 k - K 1 k * u 0 k) * I_mul_I
    · rw [cross2_2d_eq, neg_mul, mul_comm, hs, neg_neg]

theorem sum_ite_single {ι : Type*} [Fintype ι] (P : ι → Prop) [DecidablePred P] (f : ι → ℂ) (k : ι) (h : ∀ l, P l ↔ l = k) :
    ∑ l, (if P l then f l else 0) = f k := by
  classical
  simp only [h, Finset.sum_ite_eq', Finset.mem_univ, if_true]

/-- At a Nyquist mode of the last axis a transform back and forth averages over the mode and its mirror image. -/
theorem forward_backward_nyquist (hN : ∀ i, 0 < N i) (b : RModes N → ℂ) (k l : RModes N) (h0 : waves N 0 l = -waves N 0 k)
    (hk0 : 2 * waves N 0 k ≠ N 0 ∧ 2 * waves N 0 k ≠ -(N 0 : ℤ)) (hk1 : 2 * waves N 1 k = N 1) (hl1 : 2 * waves N 1 l = N 1) :
    (rspace N N).forward ((rspace N N).backward b) k = (b k + (starRingEnd ℂ) (b l)) / 2 := by
  have hp0 := hN 0
  have hp1 := hN 1
  have hnn : ∀ q : RModes N, 0 ≤ waves N 1 q := fun q => by
    have : (1 : Fin 2) = Fin.last 1 := rfl
    unfold waves
    rw [if_pos this]; positivity
  have hw : ∀ q : RModes N, 2 * waves N 1 q = N 1 → rweight N q = 1 := fun q hq => by
    unfold rweight
    exact if_pos (Or.inr hq)
  rw [rspace, forward_backward _ _ _ hN]
  rw [sum_ite_single _ _ k fun q => ?_, sum_ite_single _ _ l fun q => ?_, hw k hk1, hw l hl1]
  · simp
  all_goals
    obtain ⟨a1, a2⟩ := waves_bounds N q 0
    obtain ⟨a3, a4⟩ := waves_bounds N q 1
    obtain ⟨a5, a6⟩ := waves_bounds N k 0
    have a7 := hnn q
    constructor
  · intro hd
    have d0 := Int.eq_zero_of_abs_lt_dvd (hd 0) (by rw [abs_lt]; constructor <;> omega)
    have d1 := Int.eq_zero_of_abs_lt_dvd (dvd_add (hd 1) (dvd_refl (N 1 : ℤ)) : (N 1 : ℤ) ∣ -waves N 1 q - waves N 1 k + N 1) (by rw [abs_lt]; constructor <;> omega)
    refine waves_inj N _ _ fun i => ?_
    fin_cases i
    · show waves N 0 q = waves N 0 l; omega
    · show waves N 1 q = waves N 1 l; omega
  · rintro rfl i
    fin_cases i
    · show (N 0 : ℤ) ∣ -waves N 0 q - waves N 0 k; rw [h0]; simp
    · exact ⟨-1, by show -waves N 1 q - waves N 1 k = (N 1 : ℤ) * -1; omega⟩
  · intro hd
    have d0 := Int.eq_zero_of_abs_lt_dvd (hd 0) (by rw [abs_lt]; constructor <;> omega)
    have d1 := Int.eq_zero_of_abs_lt_dvd (hd 1) (by rw [abs_lt]; constructor <;> omega)
    refine waves_inj N _ _ fun i => ?_
    fin_cases i
    · show waves N 0 q = waves N 0 k; omega
    · show waves N 1 q = waves N 1 k; omega
  · rintro rfl i
    rw [sub_self]; exact dvd_zero _

/-- C89 fails at the Nyquist modes of Vortices2D: on every grid with an even number of points along the second axis and at least three along
the first there is a vorticity for which the start is not divergence free there; the transform drops one velocity component of the
mode and keeps the other.  (No mask is applied, unlike in KelvinHelmholtz.) -/
theorem C89_vortices2D_nyquist_false (hN0 : 3 ≤ N 0) (hN1 : 0 < N 1) (he : 2 ∣ N 1) (L : Fin 2 → ℝ) (hL : ∀ i, L i ≠ 0) :
    ∃ w : Grid N → ℝ, ¬ Spec.Solenoidal (scaledWaves N L) (fromVorticity (scaledWaves N L) w) := by
  have hN : ∀ i, 0 < N i := fun i => by fin_cases i; exacts [by show 0 < N 0; omega, hN1]
  obtain ⟨m, hm⟩ := he
  let mk : ∀ a : ℕ, a < N 0 → RModes N := fun a ha i => ⟨if i = 0 then a else m, by
    fin_cases i
    · have : ¬ ((0 : Fin 2) = Fin.last 1) := by decide
      show (if (0 : Fin 2) = 0 then a else m) < rdim N 0
      simp only [rdim, this, if_true, if_false]; exact ha
    · have h1 : ((1 : Fin 2) = Fin.last 1) := rfl
      have h2 : ¬ ((1 : Fin 2) = 0) := by decide
      show (if (1 : Fin 2) = 0 then a else m) < rdim N 1
      rw [if_neg h2, rdim, if_pos h1]; omega⟩
  have w1 : ∀ a ha, waves N 1 (mk a ha) = m := fun a ha => by
    have h1 : ((1 : Fin 2) = Fin.last 1) := rfl
    unfold waves; rw [if_pos h1]; rfl
  have w0 : ∀ a ha, waves N 0 (mk a ha) = if 2 * a < N 0 then (a : ℤ) else (a : ℤ) - N 0 := fun a ha => by
    have : ¬ ((0 : Fin 2) = Fin.last 1) := by decide
    unfold waves; rw [if_neg this]; rfl
  have q1 : 1 < N 0 := by omega
  have q2 : N 0 - 1 < N 0 := by omega
  set k := mk 1 q1 with hk
  set l := mk (N 0 - 1) q2 with hl
  have hk0 : waves N 0 k = 1 := by rw [hk, w0 1 q1, if_pos (by omega)]; rfl
  have hl0 : waves N 0 l = -1 := by rw [hl, w0 _ q2, if_neg (by omega)]; omega
  have hk1 : waves N 1 k = m := w1 1 q1
  have hl1 : waves N 1 l = m := w1 _ q2
  refine ⟨fun x => if ∀ i, (x i : ℕ) = 0 then 1 else 0, fun h => ?_⟩
  set K := scaledWaves N L with hKdef
  have K0l : K 0 l = -K 0 k := by simp [K, scaledWaves, hk0, hl0]
  have K1l : K 1 l = K 1 k := by simp [K, scaledWaves, hk1, hl1]
  have hK2 : K2 K l = K2 K k := by
    have e := K2_two K l
    rw [K0l, K1l] at e
    have e' := K2_two K k
    have : (K2 K l : ℂ) = K2 K k := by rw [e, e']; push_cast; ring
    exact_mod_cast this
  have P0l : K_over_K2 K 0 l = -K_over_K2 K 0 k := by simp only [K_over_K2, hK2, K0l, neg_div]
  have P1l : K_over_K2 K 1 l = K_over_K2 K 1 k := by simp only [K_over_K2, hK2, K1l]
  have nz0 : K 0 k ≠ 0 := fun h0 => by have := (scaled_zero L hL 0 k).1 h0; omega
  have nz1 : K 1 k ≠ 0 := fun h0 => by have := (scaled_zero L hL 1 k).1 h0; omega
  have hne : K2 K k ≠ 0 := fun h0 => nz0 ((K2_eq_zero K k).1 h0 0)
  have fb := fun b => forward_backward_nyquist hN b k l (by rw [hk0, hl0]) (by rw [hk0]; constructor <;> omega) (by rw [hk1, hm]; push_cast; ring) (by rw [hl1, hm]; push_cast; ring)
  have e0 : fromVorticity K (fun x => if ∀ i, (x i : ℕ) = 0 then 1 else 0) 0 k = 0 := by
    refine (fb _).trans ?_
    simp only [forward_delta hN, P1l]
    simp
  have e1 : fromVorticity K (fun x => if ∀ i, (x i : ℕ) = 0 then 1 else 0) 1 k = -I * K_over_K2 K 0 k * (1 / (Fintype.card (Grid N) : ℂ)) := by
    refine (fb _).trans ?_
    simp only [forward_delta hN, P0l]
    simp
  have hd := (dot_two _ _ k).symm.trans (h k)
  rw [e0, e1, mul_zero, zero_add] at hd
  have hcard : (Fintype.card (Grid N) : ℂ) ≠ 0 := by
    have : ∀ i, Nonempty (Fin (N i)) := fun i => ⟨⟨0, hN i⟩⟩
    exact_mod_cast Fintype.card_ne_zero
  have hP : (K_over_K2 K 0 k : ℂ) ≠ 0 := by
    simp only [K_over_K2, if_neg hne]
    exact_mod_cast div_ne_zero nz0 hne
  have nz1' : (K 1 k : ℂ) ≠ 0 := by exact_mod_cast nz1
  exact (mul_ne_zero nz1' (mul_ne_zero (mul_ne_zero (neg_ne_zero.2 I_ne_zero) hP) (one_div_ne_zero hcard))) hd

/-! ## Vortices.py -/

section three

variable {N : Fin 3 → ℕ}

theorem dot_three {ι : Type*} (K : Fin 3 → ι → ℝ) (u : SArr 3 ι) (k : ι) :
    Spec.dot (Spec.at' K k) (Spec.at' u k) = K 0 k * u 0 k + K 1 k * u 1 k + K 2 k * u 2 k := by
  simp only [Spec.dot, Spec.at', Fin.sum_univ_three]

theorem forward_zero {n : ℕ} {N : Fin (n + 1) → ℕ} (k : RModes N) : (rspace N N).forward (fun _ => 0) k = 0 := by
  simp [rspace, dft]

/-- A field along the first axis which does not change along it. -/
theorem axial_solenoidal (hN : ∀ i, 0 < N i) (L : Fin 3 → ℝ) (f : Grid N → ℝ) (hf : ∀ p a, f (Function.update p 0 a) = f p) :
    Spec.Solenoidal (scaledWaves N L) ((rspace N N).vforward ![f, fun _ => 0, fun _ => 0]) := by
  intro k
  refine (dot_three _ _ k).trans ?_
  have e1 : (rspace N N).vforward ![f, fun _ => 0, fun _ => 0] 1 k = 0 := forward_zero k
  have e2 : (rspace N N).vforward ![f, fun _ => 0, fun _ => 0] 2 k = 0 := forward_zero k
  rw [e1, e2, mul_zero, mul_zero, add_zero, add_zero]
  exact forward_const_mul hN L 0 f hf k

theorem init_vortex (L : Fin 3 → ℝ) (init : String) (hi : init ≠ "random") (noise : PArr 3 (Grid N)) :
    vorticesInit L init noise = (rspace N N).vforward ![fun x => vortexFun (mesh N L 1 x) (mesh N L 2 x), fun _ => 0, fun _ => 0] := by
  simp only [vorticesInit, if_neg hi]

theorem vortex_const (L : Fin 3 → ℝ) (f : ℝ → ℝ → ℝ) (p : Grid N) (a : Fin (N 0)) :
    (fun x => f (mesh N L 1 x) (mesh N L 2 x)) (Function.update p 0 a) = (fun x => f (mesh N L 1 x) (mesh N L 2 x)) p := by
  simp only [mesh_update L 0 1 (by decide), mesh_update L 0 2 (by decide)]

/-- C89.  The `vortex` start of Vortices: the vorticity is divergence free, the velocity recovered from it lies in the plane across the first
axis and does not change along that axis, and its curl is the vorticity but for its mean. -/
theorem C89_vortices (hN : ∀ i, 0 < N i) (L : Fin 3 → ℝ) (init : String) (hi : init ≠ "random") (noise : PArr 3 (Grid N)) (s : SArr 3 (RModes N)) :
    let K := scaledWaves N L
    let w := vorticesInit L init noise
    Spec.Solenoidal K w ∧ (∀ k, velocityHat s w (K_over_K2 K) 0 k = 0) ∧
      (∀ i k, waves N 0 k ≠ 0 → velocityHat s w (K_over_K2 K) i k = 0) ∧
      ∀ i k, Spec.curl K (velocityHat s w (K_over_K2 K)) i k = if ∀ j, K j k = 0 then 0 else w i k := by
  intro K w
  have hw : w = (rspace N N).vforward ![fun x => vortexFun (mesh N L 1 x) (mesh N L 2 x), fun _ => 0, fun _ => 0] := init_vortex L init hi noise
  have hsol : Spec.Solenoidal K w := by rw [hw]; exact axial_solenoidal hN L _ (vortex_const L _)
  have w1 : ∀ k, w 1 k = 0 := fun k => by rw [hw]; exact forward_zero k
  have w2 : ∀ k, w 2 k = 0 := fun k => by rw [hw]; exact forward_zero k
  have w0 : ∀ k, waves N 0 k ≠ 0 → w 0 k = 0 := fun k hk => by
    rw [hw]; exact forward_const_axis hN 0 _ (vortex_const L vortexFun) k hk
  refine ⟨hsol, fun k => ?_, fun i k hk => ?_, fun i k => ?_⟩
  · rw [velocityHat, cross2_3d_eq]
    simp only [Spec.curl, Spec.cross, fin3_add.1, fin3_add.2.1, w1, w2]
    simp
  · rw [velocityHat, cross2_3d_eq]
    have hz : ∀ j, w j k = 0 := fun j => by
      fin_cases j
      exacts [w0 k hk, w1 k, w2 k]
    simp only [Spec.curl, Spec.cross, hz]
    simp
  · let w' : SArr 3 (RModes N) := fun i k => if ∀ j, K j k = 0 then 0 else w i k
    have hs' : Spec.Solenoidal K w' := fun k => by
      by_cases hk : ∀ j, K j k = 0
      · simp [Spec.dot, Spec.at', hk]
      · have := hsol k
        simp only [Spec.dot, Spec.at', w', if_neg hk] at this ⊢
        exact this
    have hz' : Spec.ZeroMean K w' := fun k hk i => if_pos hk
    have hv : velocityHat s w (K_over_K2 K) = velocityHat s w' (K_over_K2 K) := by
      funext j q
      by_cases hq : ∀ j, K j q = 0
      · rw [velocityHat_zero _ _ _ _ hq, velocityHat_zero _ _ _ _ hq]
      · rw [velocityHat, velocityHat, cross2_3d_eq, cross2_3d_eq]
        simp only [Spec.curl, Spec.cross, w', if_neg hq]
    rw [hv, C08_curl_velocity s w' K hs' hz']

/-- C89.  Its source is zero; the source of the `random` start is divergence free too. -/
theorem C89_vortices_source (hN : ∀ i, 0 < N i) (L : Fin 3 → ℝ) (init : String) :
    Spec.Solenoidal (scaledWaves N L) (vorticesSource (N₃ := N) L init) ∧ (init ≠ "random" → vorticesSource (N₃ := N) L init = 0) := by
  have h0 : init ≠ "random" → vorticesSource (N₃ := N) L init = 0 := fun h => by
    simp only [vorticesSource, if_neg h]
    funext i k
    exact forward_zero k
  refine ⟨?_, h0⟩
  by_cases h : init = "random"
  · simp only [vorticesSource, if_pos h]
    exact axial_solenoidal hN L _ fun p a => by simp only [mesh_update L 0 1 (by decide), mesh_update L 0 2 (by decide)]
  · rw [h0 h]
    intro k
    simp [Spec.dot, Spec.at']

/-- C89.  In every run from the `vortex` start the vorticity stays divergence free. -/
theorem C89_vortices_run {X : Type*} (hN : ∀ i, 0 < N i) (L : Fin 3 → ℝ) (init : String) (hi : init ≠ "random") (noise : PArr 3 (Grid N))
    (c : Ctx 3 (RModes N) X) (hK : c.K = scaledWaves N L) (hS : c.Source = vorticesSource L init) (s : Scratch 3 (RModes N) X)
    (est : SArr 3 (RModes N) → SArr 3 (RModes N) → SArr 3 (RModes N) → PyF) (fuel : ℕ) (m : Method) (ds : List ℝ) (tstep : ℕ)
    (rhs : SArr 3 (RModes N)) (c' : Closure (SArr 3 (RModes N)))
    (h : runSteps (rhsVV c s) est fuel m tstep ds (getintegrator rhs (vorticesInit L init noise)) = some c') :
    Spec.Solenoidal (scaledWaves N L) c'.u0 := by
  rw [← hK]
  refine C10_vorticity_solenoidal c s ?_ est fuel m ds tstep rhs _ ?_ c' h
  · rw [hK, hS]; exact (C89_vortices_source hN L init).1
  · rw [hK]; exact (C89_vortices hN L init hi noise s.cplx0).1

/-- C89 fails for the `random` start, the default of the demo: whenever the first axis has two points or more there is noise for which the
vorticity is not divergence free, and is not the curl of the velocity the solver uses, at a mode other than the mean. -/
theorem C89_vortices_random_false (hN : ∀ i, 0 < N i) (hN0 : 2 ≤ N 0) (L : Fin 3 → ℝ) (hL : ∀ i, L i ≠ 0) (s : SArr 3 (RModes N)) :
    ∃ noise : PArr 3 (Grid N), ¬ Spec.Solenoidal (scaledWaves N L) (vorticesInit L "random" noise) ∧
      ∃ k i, (∃ j, scaledWaves N L j k ≠ 0) ∧
        Spec.curl (scaledWaves N L) (velocityHat s (vorticesInit L "random" noise) (K_over_K2 (scaledWaves N L))) i k ≠ vorticesInit L "random" noise i k := by
  set K := scaledWaves N L with hKdef
  have hlt : ∀ i, (if i = 0 then 1 else 0) < rdim N i := fun i => by
    have := hN i
    fin_cases i
    · have : ¬ ((0 : Fin 3) = Fin.last 2) := by decide
      show (if (0 : Fin 3) = 0 then 1 else 0) < rdim N 0
      simp only [rdim, this, if_true, if_false]; omega
    · show (if (1 : Fin 3) = 0 then 1 else 0) < rdim N 1
      simp only [rdim]; split_ifs <;> first | omega | simp_all
    · show (if (2 : Fin 3) = 0 then 1 else 0) < rdim N 2
      simp only [rdim]; split_ifs <;> first | omega | simp_all
  let k : RModes N := fun i => ⟨if i = 0 then 1 else 0, hlt i⟩
  have hk0 : waves N 0 k ≠ 0 := fun h => by
    have h1 : ¬ ((0 : Fin 3) = Fin.last 2) := by decide
    unfold waves at h
    rw [if_neg h1] at h
    have h2 : ((k 0 : ℕ)) = 1 := rfl
    rw [h2] at h
    split_ifs at h <;> omega
  have hK0 : K 0 k ≠ 0 := fun h => hk0 ((scaled_zero L hL 0 k).1 h)
  let noise : PArr 3 (Grid N) := ![fun x => if ∀ i, (x i : ℕ) = 0 then (10 / 3 : ℝ) else 0, fun _ => 0, fun _ => 0]
  have hcard : (Fintype.card (Grid N) : ℂ) ≠ 0 := by
    have : ∀ i, Nonempty (Fin (N i)) := fun i => ⟨⟨0, hN i⟩⟩
    exact_mod_cast Fintype.card_ne_zero
  have e0 : vorticesInit L "random" noise 0 k = 1 / (Fintype.card (Grid N) : ℂ) := by
    rw [← forward_delta hN k]
    simp only [vorticesInit, if_true, Space.vforward]
    congr 1
    funext x
    simp only [noise, Matrix.cons_val_zero]
    split_ifs <;> norm_num
  have e1 : vorticesInit L "random" noise 1 k = 0 := by
    rw [← forward_zero k]
    simp only [vorticesInit, if_true, Space.vforward]
    congr 1
    funext x
    simp [noise]
  have e2 : vorticesInit L "random" noise 2 k = 0 := by
    rw [← forward_zero k]
    simp only [vorticesInit, if_true, Space.vforward]
    congr 1
    funext x
    simp [noise]
  have hd : Spec.dot (Spec.at' K k) (Spec.at' (vorticesInit L "random" noise) k) ≠ 0 := by
    refine fun h => ?_
    have h := (dot_three _ _ k).symm.trans h
    rw [e0, e1, e2, mul_zero, mul_zero, add_zero, add_zero] at h
    have hK0' : (K 0 k : ℂ) ≠ 0 := by exact_mod_cast hK0
    exact mul_ne_zero hK0' (one_div_ne_zero hcard) h
  refine ⟨noise, fun h => hd (h k), k, ?_⟩
  by_contra hc
  push Not at hc
  have hc' : ∀ i, Spec.curl K (velocityHat s (vorticesInit L "random" noise) (K_over_K2 K)) i k = vorticesInit L "random" noise i k :=
    fun i => hc i ⟨0, hK0⟩
  have := dot_curl K (velocityHat s (vorticesInit L "random" noise) (K_over_K2 K)) k
  apply hd
  rw [← this]
  congr 1
  funext i
  exact (hc' i).symm

end three

/-! ## Examples -/

/-- The sizes of the Kelvin-Helmholtz demo on a small grid: `4 x 4` points in a box of side `2 pi`; a point in the inner layer, where the
velocity is not zero. -/
example : let N : Fin 2 → ℕ := ![4, 4]
    let L : Fin 2 → ℝ := fun _ => 2 * Real.pi
    Spec.Solenoidal (scaledWaves N L) (khInit (N := N) L (-0.5) 0.5 0.1 0.01) ∧
      ∀ x : Grid N, (x 1 : ℕ) = 0 → khU0 L (-0.5) 0.5 0.1 x = Spec.doubleLayer (-0.5) 0.5 0.1 0 := by
  intro N L
  have hN : ∀ i, 0 < N i := fun i => by fin_cases i <;> simp [N]
  refine ⟨(C89_kelvin_helmholtz_solenoidal hN L (fun i => by simp [L, Real.pi_ne_zero]) _ _ _ _).1, fun x hx => ?_⟩
  rw [C89_kelvin_helmholtz_profile L rfl ⟨1, rfl⟩]
  congr 1
  simp [mesh, hx]

/-- The other hypotheses are met on the grids `4 x 4` and `4 x 4 x 4`. -/
example : (∃ w, ¬ Spec.Solenoidal (scaledWaves ![4, 4] fun _ => 2 * Real.pi) (fromVorticity (N := ![4, 4]) (scaledWaves ![4, 4] fun _ => 2 * Real.pi) w)) ∧
    ∃ noise : PArr 3 (Grid ![4, 4, 4]), ¬ Spec.Solenoidal (scaledWaves ![4, 4, 4] fun _ => 2 * Real.pi) (vorticesInit (fun _ => 2 * Real.pi) "random" noise) := by
  refine ⟨C89_vortices2D_nyquist_false (N := ![4, 4]) (by simp) (by simp) (by simp) _ fun i => by simp [Real.pi_ne_zero], ?_⟩
  obtain ⟨noise, h, _⟩ := C89_vortices_random_false (N := ![4, 4, 4]) (fun i => by fin_cases i <;> simp) (by simp) (fun _ => 2 * Real.pi)
    (fun i => by simp [Real.pi_ne_zero]) 0
  exact ⟨noise, h⟩

end SpectralDNS.Demos

import Verif.Lemmas.TrigAlg
import Verif.Props.RoundTrip

/-!
# C71: the Taylor-Green initial states of demo/TG.py, demo/TG2D.py and demo/TGMHD.py

The boxes have sides `2 pi p` with positive integers `p` (demo/TG.py `L=[2pi,2pi,2pi]`, demo/TGMHD.py `L=[2pi,4pi,6pi]`) and more than
`2 p` points along every axis.
-/

set_option linter.unusedSimpArgs false

namespace SpectralDNS.Demos

open Periodic Complex

/-- Coefficients of `tg3`. -/
noncomputable def cU (i : Fin 3) (j : Bool × Bool × Bool) : ℂ := (![-I * sg j.1 / 8, I * sg j.2.1 / 8, 0] : Fin 3 → ℂ) i

/-- Coefficients of `tgB`. -/
noncomputable def cB (i : Fin 3) (j : Bool × Bool × Bool) : ℂ := (![-(sg j.1 * sg j.2.1 : ℂ) / 8, 1 / 8, 0] : Fin 3 → ℂ) i

theorem tg3_trig (p M : Fin 3 → ℕ) (i : Fin 3) (x : Grid M) :
    ((onMesh M (box p) tg3 i x : ℝ) : ℂ) = trig M (modes p e3) (cU i) x := by
  have h0 := ph_ne_zero p M 0 x
  have h1 := ph_ne_zero p M 1 x
  have h2 := ph_ne_zero p M 2 x
  simp only [trig, Fintype.sum_prod_type, Fintype.sum_bool, expz_modes, Fin.prod_univ_three]
  fin_cases i
  · simp only [onMesh, tg3, cU, e3, sg, Fin.zero_eta, Fin.mk_one, Fin.reduceFinMk, Matrix.cons_val, ofReal_mul, sin_ph, cos_ph, if_true, if_false,
      Bool.false_eq_true, Int.cast_neg, Int.cast_one, zpow_neg, zpow_one]
    field_simp
    ring
  · simp only [onMesh, tg3, cU, e3, sg, Fin.zero_eta, Fin.mk_one, Fin.reduceFinMk, Matrix.cons_val, ofReal_mul, ofReal_neg, sin_ph, cos_ph, if_true, if_false,
      Bool.false_eq_true, Int.cast_neg, Int.cast_one, zpow_neg, zpow_one]
    field_simp
    ring
  · simp [onMesh, tg3, cU]

theorem tgB_trig (p M : Fin 3 → ℕ) (i : Fin 3) (x : Grid M) :
    ((onMesh M (box p) tgB i x : ℝ) : ℂ) = trig M (modes p e3) (cB i) x := by
  have h0 := ph_ne_zero p M 0 x
  have h1 := ph_ne_zero p M 1 x
  have h2 := ph_ne_zero p M 2 x
  simp only [trig, Fintype.sum_prod_type, Fintype.sum_bool, expz_modes, Fin.prod_univ_three]
  fin_cases i
  · simp only [onMesh, tgB, cB, e3, sg, Fin.zero_eta, Fin.mk_one, Fin.reduceFinMk, Matrix.cons_val, ofReal_mul, sin_ph, cos_ph, if_true, if_false,
      Bool.false_eq_true, Int.cast_neg, Int.cast_one, zpow_neg, zpow_one]
    field_simp
    ring_nf
    simp only [I_sq]
    ring
  · simp only [onMesh, tgB, cB, e3, sg, Fin.zero_eta, Fin.mk_one, Fin.reduceFinMk, Matrix.cons_val, ofReal_mul, ofReal_neg, sin_ph, cos_ph, if_true, if_false,
      Bool.false_eq_true, Int.cast_neg, Int.cast_one, zpow_neg, zpow_one]
    field_simp
    ring
  · simp [onMesh, tgB, cB]

section three

variable (p N : Fin 3 → ℕ) (hp : ∀ i, 0 < p i) (hN : ∀ i, 2 * p i < N i)
include hN

theorem pos_of (i : Fin 3) : 0 < N i := by have := hN i; omega

theorem initialize1_eq : initialize1 N (box p) = fun i => coeffs N (modes p e3) (cU i) :=
  funext fun i => forward_trig N N (fun _ => le_rfl) _ _ (e3_band p N hN) _ (tg3_trig p N i) (pos_of p N hN)

theorem initializeB_eq : set_velocity (rspace N N) (onMesh N (box p) tgB) = fun i => coeffs N (modes p e3) (cB i) :=
  funext fun i => forward_trig N N (fun _ => le_rfl) _ _ (e3_band p N hN) _ (tgB_trig p N i) (pos_of p N hN)

include hp

omit hN in
theorem coeffs3_solenoidal (c : Fin 3 → Bool × Bool × Bool → ℂ)
    (h : ∀ j, (e3 j 0 : ℂ) * c 0 j + e3 j 1 * c 1 j + e3 j 2 * c 2 j = 0) :
    Spec.Solenoidal (scaledWaves N (box p)) fun i => coeffs N (modes p e3) (c i) := by
  intro k
  rw [Spec.dot, Fin.sum_univ_three]
  simp only [Spec.at', wave_coeffs N p hp, coeffs_add]
  exact coeffs_zero _ _ _ h k

omit hN in
theorem coeffs3_mean (c : Fin 3 → Bool × Bool × Bool → ℂ) :
    Spec.ZeroMean (scaledWaves N (box p)) fun i => coeffs N (modes p e3) (c i) :=
  fun k hk i => coeffs_mean N p hp e3 (c i) (fun j => ⟨0, by rcases j with ⟨_ | _, _⟩ <;> simp [e3, sg]⟩) k hk

theorem energy3 (c : Fin 3 → Bool × Bool × Bool → ℂ) (U : PArr 3 (Grid N)) (hU : ∀ i x, ((U i x : ℝ) : ℂ) = trig N (modes p e3) (c i) x) :
    gridEnergy N U = (∑ i, ∑ j, normSq (c i j)) / 2 := by
  have hprod : (∏ j, (N j : ℝ)) ≠ 0 := Finset.prod_ne_zero_iff.2 fun i _ => by exact_mod_cast (pos_of p N hN i).ne'
  rw [gridEnergy, Finset.sum_congr rfl fun i _ => trig_energy N (pos_of p N hN) _ (e3_inj p hp) (e3_band p N hN) (c i) (U i) (hU i),
    ← Finset.mul_sum, mul_div_cancel_left₀ _ hprod]

omit hN in
/-- The vorticity of a sum of diagonal modes. -/
theorem curl3 (w : SArr 3 (RModes N)) (c : Fin 3 → Bool × Bool × Bool → ℂ) :
    cross2_3d w (scaledWaves N (box p)) (fun i => coeffs N (modes p e3) (c i)) =
      fun i => coeffs N (modes p e3) fun j => Spec.cross (fun i => (e3 j i : ℂ)) (fun i => c i j) i * I := by
  rw [cross2_3d_eq]
  funext i k
  have hc : ∀ a b : Fin 3, (scaledWaves N (box p) a k : ℂ) * coeffs N (modes p e3) (c b) k =
      coeffs N (modes p e3) (fun j => (e3 j a : ℂ) * c b j) k := fun a b => wave_coeffs N p hp _ _ _ _
  simp only [Spec.curl, Spec.cross, hc]
  rw [sub_eq_add_neg, coeffs_neg, coeffs_add, coeffs_mul]
  congr 1
  funext j
  ring

end three

/-- C71.  The velocity that demo/TG.py starts from is solenoidal with zero mean, its energy is 1/8 and its enstrophy (half the mean square
of the vorticity that the solver computes) is 3/8. -/
theorem C71_taylor_green (p N : Fin 3 → ℕ) (hp : ∀ i, 0 < p i) (hN : ∀ i, 2 * p i < N i) (L : Fin 3 → ℝ)
    (hL : ∀ i, L i = 2 * Real.pi * p i) (w : SArr 3 (RModes N)) :
    Spec.Solenoidal (scaledWaves N L) (initialize1 N L) ∧ Spec.ZeroMean (scaledWaves N L) (initialize1 N L) ∧
      gridEnergy N (get_velocity (rspace N N) (initialize1 N L)) = 1 / 8 ∧
      gridEnergy N (compute_curl w (initialize1 N L) (rspace N N) (scaledWaves N L)) = 3 / 8 := by
  obtain rfl : L = box p := funext hL
  refine ⟨?_, ?_, ?_, ?_⟩
  · rw [initialize1_eq p N hN]
    refine coeffs3_solenoidal p N hp _ fun j => ?_
    rcases j with ⟨_ | _, _ | _, _ | _⟩ <;> simp [cU, e3, sg] <;> ring
  · rw [initialize1_eq p N hN]
    exact coeffs3_mean p N hp _
  · rw [initialize1, C70_round_trip N (pos_of p N hN), energy3 p N hp hN cU _ (tg3_trig p N)]
    simp only [Fin.sum_univ_three, Fintype.sum_prod_type, Fintype.sum_bool]
    simp [cU, sg, normSq_apply]
    norm_num
  · rw [initialize1_eq p N hN, compute_curl, curl3 p N hp]
    refine (energy3 p N hp hN (fun i j => Spec.cross (fun i => (e3 j i : ℂ)) (fun i => cU i j) i * I) _
      fun i x => backward_trig N N _ _ o3 o3_inv (modes_o3 p) (fun j => ?_) (e3_band p N hN) x).trans ?_
    rotate_left
    · simp only [Fin.sum_univ_three, Fintype.sum_prod_type, Fintype.sum_bool]
      simp [cU, e3, sg, normSq_apply, Spec.cross]
      norm_num
    · have h8 : (starRingEnd ℂ) 8 = 8 := map_ofNat _ 8
      rcases j with ⟨_ | _, _ | _, _ | _⟩ <;> fin_cases i <;> simp [cU, e3, o3, sg, Spec.cross, h8] <;> ring_nf

/-- C71.  Solver VV started by demo/TG.py holds a solenoidal vorticity with zero mean and returns the same velocity. -/
theorem C71_taylor_green_vv (p N : Fin 3 → ℕ) (hp : ∀ i, 0 < p i) (hN : ∀ i, 2 * p i < N i) (L : Fin 3 → ℝ)
    (hL : ∀ i, L i = 2 * Real.pi * p i) (s w : SArr 3 (RModes N)) :
    compute_velocity s (initialize2 N L w) (rspace N N) (K_over_K2 (scaledWaves N L)) = onMesh N L tg3 ∧
      Spec.Solenoidal (scaledWaves N L) (initialize2 N L w) ∧ Spec.ZeroMean (scaledWaves N L) (initialize2 N L w) ∧
      gridEnergy N (get_velocity (rspace N N) (initialize2 N L w)) = 3 / 8 := by
  have h := C71_taylor_green p N hp hN L hL w
  obtain rfl : L = box p := funext hL
  have h2 : initialize2 N (box p) w = cross2_3d w (scaledWaves N (box p)) (initialize1 N (box p)) := rfl
  refine ⟨C70_vorticity N (pos_of p N hN) _ _ s w h.1 h.2.1, ?_, ?_, h.2.2.2⟩
  · rw [h2, initialize1_eq p N hN, curl3 p N hp]
    refine coeffs3_solenoidal p N hp _ fun j => ?_
    rcases j with ⟨_ | _, _ | _, _ | _⟩ <;> simp [cU, e3, sg, Spec.cross] <;> ring
  · rw [h2, initialize1_eq p N hN, curl3 p N hp]
    exact coeffs3_mean p N hp _

/-- C71.  The velocity and the magnetic field that demo/TGMHD.py starts from are both solenoidal with zero mean and energy 1/8. -/
theorem C71_taylor_green_mhd (p N : Fin 3 → ℕ) (hp : ∀ i, 0 < p i) (hN : ∀ i, 2 * p i < N i) (L : Fin 3 → ℝ)
    (hL : ∀ i, L i = 2 * Real.pi * p i) :
    (Spec.Solenoidal (scaledWaves N L) (initializeMHD N L).1 ∧ Spec.ZeroMean (scaledWaves N L) (initializeMHD N L).1 ∧
      gridEnergy N (get_velocity (rspace N N) (initializeMHD N L).1) = 1 / 8) ∧
    Spec.Solenoidal (scaledWaves N L) (initializeMHD N L).2 ∧ Spec.ZeroMean (scaledWaves N L) (initializeMHD N L).2 ∧
      gridEnergy N (get_velocity (rspace N N) (initializeMHD N L).2) = 1 / 8 := by
  have h := C71_taylor_green p N hp hN L hL fun _ _ => 0
  refine ⟨⟨h.1, h.2.1, h.2.2.1⟩, ?_⟩
  obtain rfl : L = box p := funext hL
  have h2 : (initializeMHD N (box p)).2 = set_velocity (rspace N N) (onMesh N (box p) tgB) := rfl
  refine ⟨?_, ?_, ?_⟩
  · rw [h2, initializeB_eq p N hN]
    refine coeffs3_solenoidal p N hp _ fun j => ?_
    rcases j with ⟨_ | _, _ | _, _ | _⟩ <;> simp [cB, e3, sg] <;> norm_num
  · rw [h2, initializeB_eq p N hN]
    exact coeffs3_mean p N hp _
  · rw [h2, C70_round_trip N (pos_of p N hN), energy3 p N hp hN cB _ (tgB_trig p N)]
    simp only [Fin.sum_univ_three, Fintype.sum_prod_type, Fintype.sum_bool]
    simp [cB, sg, normSq_apply]
    norm_num

/-- The box of demo/TGMHD.py with 8, 10 and 12 points meets the hypotheses. -/
example : ∃ (p N : Fin 3 → ℕ) (L : Fin 3 → ℝ), (∀ i, 0 < p i) ∧ (∀ i, 2 * p i < N i) ∧ (∀ i, L i = 2 * Real.pi * p i) ∧
    L = ![2 * Real.pi, 4 * Real.pi, 6 * Real.pi] :=
  ⟨![1, 2, 3], ![8, 10, 12], _, by decide, by decide, fun _ => rfl, by
    funext i; fin_cases i <;> simp <;> ring⟩

/-- With only two points per period the initial velocity vanishes on the grid: the hypothesis on `N` is needed. -/
example : onMesh (fun _ => 2) (fun _ => 2 * Real.pi) tg3 = 0 := by
  have hs : ∀ (i : Fin 3) (x : Grid (fun _ : Fin 3 => 2)), Real.sin (mesh (fun _ => 2) (fun _ => 2 * Real.pi) i x) = 0 := by
    intro i x
    have : mesh (fun _ : Fin 3 => 2) (fun _ => 2 * Real.pi) i x = ((x i : ℕ) : ℝ) * Real.pi := by
      simp only [mesh]; push_cast; ring
    rw [this, Real.sin_nat_mul_pi]
  funext i x
  fin_cases i <;> simp [onMesh, tg3, hs]

end SpectralDNS.Demos

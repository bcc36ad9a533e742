import Verif.Props.TaylorGreen
import Verif.Props.Bq
import Verif.Props.FixedStep
import Verif.Lemmas.Invariant
import Mathlib.Analysis.Complex.ExponentialBounds

/-!
# C72: demo/TG2D.py computes the decaying Taylor-Green vortex

The initial state is an eigenfunction of the whole right-hand side (the convective term is a gradient and is removed by the pressure), so
that a run of the two-dimensional solver is the run of the scalar equation `y' = -2 nu y`.  Boxes have sides `2 pi p` and more than `4 p`
points along each axis; the convective term may be computed on any finer grid.
-/

set_option linter.unusedSimpArgs false

namespace SpectralDNS.Demos

open Periodic Complex

/-- Coefficients of `tg2`. -/
noncomputable def cT (i : Fin 2) (j : Bool × Bool) : ℂ := (![-I * sg j.1 / 4, I * sg j.2 / 4] : Fin 2 → ℂ) i

/-- Coefficients of the vorticity of `tg2`. -/
noncomputable def cW (j : Bool × Bool) : ℂ := -(sg j.1 * sg j.2 : ℂ) / 2

/-- The nine even modes up to two. -/
def e9 (j : Fin 3 × Fin 3) : Fin 2 → ℤ := ![2 * (j.1 : ℕ) - 2, 2 * (j.2 : ℕ) - 2]

/-- Coefficients of the potential of the convective term, `(cos 2x + cos 2y - cos 2x cos 2y)/4`. -/
noncomputable def cP (j : Fin 3 × Fin 3) : ℂ :=
  if j.1 = 1 then (if j.2 = 1 then 0 else 1 / 8) else if j.2 = 1 then 1 / 8 else -1 / 16

theorem tg2_trig (p M : Fin 2 → ℕ) (i : Fin 2) (x : Grid M) :
    ((onMesh M (box p) tg2 i x : ℝ) : ℂ) = trig M (modes p e2) (cT i) x := by
  have h0 := ph_ne_zero p M 0 x
  have h1 := ph_ne_zero p M 1 x
  simp only [trig, Fintype.sum_prod_type, Fintype.sum_bool, expz_modes, Fin.prod_univ_two]
  fin_cases i <;>
  · simp only [onMesh, tg2, cT, e2, sg, Fin.zero_eta, Fin.mk_one, Matrix.cons_val, ofReal_mul, ofReal_neg, sin_ph, cos_ph, if_true, if_false,
      Bool.false_eq_true, Int.cast_neg, Int.cast_one, zpow_neg, zpow_one]
    field_simp
    ring

theorem e9_band (p N : Fin 2 → ℕ) (h : ∀ i, 4 * p i < N i) (j i) : 2 * |modes p e9 j i| < N i := by
  have := h i
  have h1 : |e9 j i| ≤ 2 := by
    rcases j with ⟨a, b⟩
    fin_cases i <;> fin_cases a <;> fin_cases b <;> decide
  rw [modes, abs_mul, Nat.abs_cast]
  nlinarith

/-- The product of velocity and vorticity is a sum of even modes: component `i` of the convective term is `d/dx_i` of the potential. -/
theorem product_trig (p M : Fin 2 → ℕ) (a : ℂ) (x : Grid M) :
    trig M (modes p e2) (fun j => a * cT 1 j) x * trig M (modes p e2) (fun j => a * cW j) x =
      trig M (modes p e9) (fun j => (e9 j 0 : ℂ) * (a ^ 2 * I * cP j)) x ∧
    -trig M (modes p e2) (fun j => a * cT 0 j) x * trig M (modes p e2) (fun j => a * cW j) x =
      trig M (modes p e9) (fun j => (e9 j 1 : ℂ) * (a ^ 2 * I * cP j)) x := by
  have h0 := ph_ne_zero p M 0 x
  have h1 := ph_ne_zero p M 1 x
  simp only [trig, Fintype.sum_prod_type, Fintype.sum_bool, expz_modes, Fin.prod_univ_two, Fin.sum_univ_three]
  constructor <;>
  · simp [cT, cW, cP, e2, e9, sg]
    field_simp
    ring_nf
    try simp only [I_sq]
    try ring

section two

variable (p N M : Fin 2 → ℕ) (hp : ∀ i, 0 < p i) (hN : ∀ i, 4 * p i < N i) (hNM : ∀ i, N i ≤ M i)
include hN

theorem pos2 (i : Fin 2) : 0 < N i := by have := hN i; omega

theorem band2 (i : Fin 2) : 2 * p i < N i := by have := hN i; omega

theorem initialize2D_eq : initialize2D N (box p) = fun i => coeffs N (modes p e2) (cT i) :=
  funext fun i => forward_trig N N (fun _ => le_rfl) _ _ (e2_band p N (band2 p N hN)) _ (tg2_trig p N i) (pos2 p N hN)

theorem velocity_back (a : ℝ) (i : Fin 2) (x : Grid M) :
    (((rspace N M).backward (coeffs N (modes p e2) fun j => (a : ℂ) * cT i j) x : ℝ) : ℂ) =
      trig M (modes p e2) (fun j => (a : ℂ) * cT i j) x := by
  refine backward_trig N M _ _ o2 o2_inv (modes_o2 p) (fun j => ?_) (e2_band p N (band2 p N hN)) x
  have h4 : (starRingEnd ℂ) 4 = 4 := map_ofNat _ 4
  rcases j with ⟨_ | _, _ | _⟩ <;> fin_cases i <;> simp [cT, o2, sg, h4]

theorem vorticity_back (a : ℝ) (x : Grid M) :
    (((rspace N M).backward (coeffs N (modes p e2) fun j => (a : ℂ) * cW j) x : ℝ) : ℂ) =
      trig M (modes p e2) (fun j => (a : ℂ) * cW j) x := by
  refine backward_trig N M _ _ o2 o2_inv (modes_o2 p) (fun j => ?_) (e2_band p N (band2 p N hN)) x
  have h4 : (starRingEnd ℂ) 2 = 2 := map_ofNat _ 2
  rcases j with ⟨_ | _, _ | _⟩ <;> simp [cW, o2, sg, h4]

include hp hNM

/-- The convective term of a multiple of the initial state is a gradient. -/
theorem conv_gradient (a : ℝ) (w : RModes N → ℂ) (r : SArr 2 (RModes N)) (i : Fin 2) (k : RModes N) :
    conv2DVortex w r (fun i => coeffs N (modes p e2) fun j => (a : ℂ) * cT i j) (rspace N M) (scaledWaves N (box p)) i k =
      (scaledWaves N (box p) i k : ℂ) * coeffs N (modes p e9) (fun j => (a : ℂ) ^ 2 * I * cP j) k := by
  have hcurl : cross2_2d w (scaledWaves N (box p)) (fun i => coeffs N (modes p e2) fun j => (a : ℂ) * cT i j) =
      coeffs N (modes p e2) fun j => (a : ℂ) * cW j := by
    funext k
    simp only [cross2_2d, cross1_2d, Pi.sub_apply, Pi.mul_apply, wave_coeffs N p hp]
    rw [sub_eq_add_neg, coeffs_neg, coeffs_add, mul_comm, coeffs_mul]
    congr 1
    funext j
    rcases j with ⟨_ | _, _ | _⟩ <;> simp [cT, cW, e2, sg] <;> ring_nf <;> simp only [I_sq] <;> ring
  rw [wave_coeffs N p hp]
  have hf : ∀ i, conv2DVortex w r (fun i => coeffs N (modes p e2) fun j => (a : ℂ) * cT i j) (rspace N M) (scaledWaves N (box p)) i =
      coeffs N (modes p e9) (fun j => (e9 j i : ℂ) * ((a : ℂ) ^ 2 * I * cP j)) := by
    intro i
    have hb := e9_band p N hN
    have hu := velocity_back p N M hN a
    have hw := vorticity_back p N M hN a
    fin_cases i
    · refine forward_trig N M hNM _ _ hb _ (fun x => ?_) (pos2 p N hN)
      rw [ofReal_mul, hcurl, Space.vbackward, hu 1 x, hw x]
      exact (product_trig p M a x).1
    · refine forward_trig N M hNM _ _ hb _ (fun x => ?_) (pos2 p N hN)
      rw [ofReal_mul, ofReal_neg, hcurl, Space.vbackward, hu 0 x, hw x]
      exact (product_trig p M a x).2
  rw [hf]

end two

/-- Gradients are removed by the pressure, whatever the mask. -/
theorem pressure_gradient {ι : Type*} {d : ℕ} (K : Fin d → ι → ℝ) (mask : Option (ι → Bool)) (g u : SArr d ι) (ψ : ι → ℂ)
    (h : ∀ i k, g i k = (K i k : ℂ) * ψ k) (nu : ℝ) :
    (add_pressure_diffusion (maskNyquist mask g) u nu (K2 K) K (K_over_K2 K)).1 = fun i k => -((nu * K2 K k : ℝ) * u i k) := by
  have hm : ∃ χ : ι → ℂ, ∀ i k, maskNyquist mask g i k = (K i k : ℂ) * χ k := by
    cases mask with
    | none => exact ⟨ψ, h⟩
    | some m => exact ⟨fun k => ψ k * (if m k then 1 else 0), fun i k => by simp only [maskNyquist, h]; ring⟩
  obtain ⟨χ, hχ⟩ := hm
  funext i k
  simp only [add_pressure_diffusion, hχ]
  by_cases hk : K2 K k = 0
  · have := (K2_eq_zero K k).1 hk i
    simp [this, hk]
  · have h1 := sum_K_KoK2 K k hk
    have h2 : ∑ j, (K j k : ℂ) * χ k * (K_over_K2 K j k : ℂ) = χ k := by
      have : (∑ j, (K j k : ℂ) * (K_over_K2 K j k : ℂ)) = 1 := by exact_mod_cast h1
      calc _ = χ k * ∑ j, (K j k : ℂ) * (K_over_K2 K j k : ℂ) := by
            rw [Finset.mul_sum]; exact Finset.sum_congr rfl fun j _ => by ring
        _ = χ k := by rw [this, mul_one]
    rw [h2]; ring

/-- C72.  The right-hand side of NS2D at every real multiple `a` of the initial state of demo/TG2D.py is `-2 nu` times the state: no
convection is left, with or without padding and mask. -/
theorem C72_rhs (p N M : Fin 2 → ℕ) (hp : ∀ i, 0 < p i) (hN : ∀ i, 4 * p i < N i) (hNM : ∀ i, N i ≤ M i) (L : Fin 2 → ℝ)
    (hL : ∀ i, L i = 2 * Real.pi * p i) (nu : ℝ) (mask : Option (RModes N → Bool)) (w : RModes N → ℂ) (r : SArr 2 (RModes N)) (a : ℝ) :
    rhsNS ⟨rspace N M, scaledWaves N L, nu, mask, 0⟩ (fun r u => conv2DVortex w r u (rspace N M) (scaledWaves N L)) r
      (a • initialize2D N L) = (-2 * nu) • a • initialize2D N L := by
  obtain rfl : L = box p := funext hL
  have hst : a • initialize2D N (box p) = fun i => coeffs N (modes p e2) fun j => (a : ℂ) * cT i j := by
    rw [initialize2D_eq p N hN]
    funext i k
    rw [← coeffs_mul]
    simp
  have h := pressure_gradient (scaledWaves N (box p)) mask _ (a • initialize2D N (box p)) _
    (conv_gradient p N M hp hN hNM a w r) nu
  rw [← hst] at h
  funext i k
  simp only [rhsNS, ComputeRHS, h, Pi.zero_apply, add_zero]
  rw [hst]
  have hK : ((nu * K2 (scaledWaves N (box p)) k : ℝ) : ℂ) * coeffs N (modes p e2) (fun j => (a : ℂ) * cT i j) k =
      (2 * nu : ℂ) * coeffs N (modes p e2) (fun j => (a : ℂ) * cT i j) k := by
    have h2 : ∀ b : Fin 2, (scaledWaves N (box p) b k : ℂ) * ((scaledWaves N (box p) b k : ℂ) *
        coeffs N (modes p e2) (fun j => (a : ℂ) * cT i j) k) = coeffs N (modes p e2) (fun j => (a : ℂ) * cT i j) k := by
      intro b
      rw [wave_coeffs N p hp, wave_coeffs N p hp]
      congr 1
      funext j
      have : (e2 j b : ℂ) * (e2 j b : ℂ) = 1 := by
        rcases j with ⟨_ | _, _ | _⟩ <;> fin_cases b <;> simp [e2, sg]
      rw [← mul_assoc, this, one_mul]
    have hs : K2 (scaledWaves N (box p)) k = scaledWaves N (box p) 0 k * scaledWaves N (box p) 0 k +
        scaledWaves N (box p) 1 k * scaledWaves N (box p) 1 k := Fin.sum_univ_two _
    rw [hs]
    push_cast
    linear_combination (nu : ℂ) * h2 0 + (nu : ℂ) * h2 1
  rw [hK]
  simp only [Pi.smul_apply, real_smul]
  push_cast
  ring

/-- C72.  For every integrator of the package a run of NS2D from the Taylor-Green vortex is the run of the scalar equation `y' = -2 nu y`
from `y = 1`, times the initial state.  The hypothesis on the estimate concerns adaptive runs only. -/
theorem C72_run (p N M : Fin 2 → ℕ) (hp : ∀ i, 0 < p i) (hN : ∀ i, 4 * p i < N i) (hNM : ∀ i, N i ≤ M i) (L : Fin 2 → ℝ)
    (hL : ∀ i, L i = 2 * Real.pi * p i) (nu : ℝ) (mask : Option (RModes N → Bool)) (w : RModes N → ℂ) (r : SArr 2 (RModes N))
    (est : ℝ → ℝ → ℝ → PyF) (est' : SArr 2 (RModes N) → SArr 2 (RModes N) → SArr 2 (RModes N) → PyF) (m : Method)
    (hest : m = .BS5 true → ∀ a b c, est' (a • initialize2D N L) (b • initialize2D N L) (c • initialize2D N L) = est a b c)
    (fuel : ℕ) (ds : List ℝ) (tstep : ℕ) (y0 : ℝ) (y : Closure ℝ)
    (h : runSteps (fun _ y : ℝ => -2 * nu * y) est fuel m tstep ds (getintegrator y0 1) = some y) :
    ∃ c', runSteps (rhsNS ⟨rspace N M, scaledWaves N L, nu, mask, 0⟩
        fun r u => conv2DVortex w r u (rspace N M) (scaledWaves N L)) est' fuel m tstep ds (getintegrator r (initialize2D N L)) = some c' ∧
      c'.u0 = y.u0 • initialize2D N L := by
  have H : Intertwines (LinearMap.toSpanSingleton ℝ (SArr 2 (RModes N)) (initialize2D N L)) Set.univ ⊤ (fun _ y : ℝ => -2 * nu * y)
      (rhsNS ⟨rspace N M, scaledWaves N L, nu, mask, 0⟩ fun r u => conv2DVortex w r u (rspace N M) (scaledWaves N L)) :=
    ⟨fun _ _ _ _ => trivial, fun _ _ _ => trivial, fun r r' a _ => by
      simp only [LinearMap.toSpanSingleton_apply]
      rw [C72_rhs p N M hp hN hNM L hL, smul_smul]⟩
  have := run_map H est est' m (fun hm a b _ c _ => hest hm a b c) fuel ds tstep y0 1 r trivial (fun _ => Or.inr trivial) y h
  simpa using this

/-- Growth factor of classical RK4. -/
noncomputable def rk4Factor (z : ℝ) : ℝ := 1 + z + z ^ 2 / 2 + z ^ 3 / 6 + z ^ 4 / 24

theorem scalar_rk4 (lam : ℝ) (est : ℝ → ℝ → ℝ → PyF) (fuel : ℕ) (ds : List ℝ) : ∀ (tstep : ℕ) (c : Closure ℝ),
    ∃ c', runSteps (fun _ y : ℝ => -lam * y) est fuel .RK4 tstep ds c = some c' ∧
      c'.u0 = (ds.map fun dt => rk4Factor (-(lam * dt))).prod * c.u0 := by
  induction ds with
  | nil => intro tstep c; exact ⟨c, rfl, by simp⟩
  | cons dt ds ih =>
    intro tstep c
    obtain ⟨c1, h1, e1⟩ := C17_rk4_classical (fun _ y : ℝ => -lam * y) (fun y => -lam * y) (fun _ _ => rfl) est fuel .RK4 rfl dt tstep c
    obtain ⟨c2, h2, e2⟩ := ih (tstep + 1) c1
    refine ⟨c2, ?_, ?_⟩
    · simp only [runSteps, h1, h2]
    · rw [e2, e1, List.map_cons, List.prod_cons]
      simp only [Spec.rk4, rk4Factor, smul_eq_mul]
      ring

/-- C72.  With RK4 and steps `ds` (of any sizes) demo/TG2D.py ends with the initial velocity times the product of the growth factors. -/
theorem C72_rk4 (p N M : Fin 2 → ℕ) (hp : ∀ i, 0 < p i) (hN : ∀ i, 4 * p i < N i) (hNM : ∀ i, N i ≤ M i) (L : Fin 2 → ℝ)
    (hL : ∀ i, L i = 2 * Real.pi * p i) (nu : ℝ) (mask : Option (RModes N → Bool)) (w : RModes N → ℂ) (r : SArr 2 (RModes N))
    (est : SArr 2 (RModes N) → SArr 2 (RModes N) → SArr 2 (RModes N) → PyF) (fuel : ℕ) (ds : List ℝ) (tstep : ℕ) :
    ∃ c', runSteps (rhsNS ⟨rspace N M, scaledWaves N L, nu, mask, 0⟩
        fun r u => conv2DVortex w r u (rspace N M) (scaledWaves N L)) est fuel .RK4 tstep ds (getintegrator r (initialize2D N L)) = some c' ∧
      get_velocity (rspace N N) c'.u0 = fun i x => (ds.map fun dt => rk4Factor (-(2 * nu * dt))).prod * onMesh N L tg2 i x := by
  obtain ⟨y, h, e⟩ := scalar_rk4 (2 * nu) (fun _ _ _ => .nan) fuel ds tstep (getintegrator 0 1)
  obtain ⟨c', h', e'⟩ := C72_run p N M hp hN hNM L hL nu mask w r (fun _ _ _ => .nan) est .RK4 (by simp) fuel ds tstep 0 y
    (by convert h using 2; funext _ y; ring)
  refine ⟨c', h', ?_⟩
  obtain rfl : L = box p := funext hL
  rw [e', e]
  simp only [getintegrator, mul_one]
  set R := (ds.map fun dt => rk4Factor (-(2 * nu * dt))).prod
  funext i x
  have hst : (R • initialize2D N (box p)) i = coeffs N (modes p e2) fun j => (R : ℂ) * cT i j := by
    rw [initialize2D_eq p N hN]
    funext k
    rw [← coeffs_mul]
    simp
  have h1 := velocity_back p N N hN R i x
  rw [get_velocity, Space.vbackward, hst]
  apply ofReal_injective
  rw [h1, ofReal_mul, tg2_trig]
  simp only [trig, Finset.mul_sum, mul_assoc]

theorem exp_rk4 (z : ℝ) (h0 : z ≤ 0) (h1 : -1 ≤ z) : |rk4Factor z - Real.exp z| ≤ |z| ^ 5 / 100 ∧ 0 ≤ rk4Factor z ∧ rk4Factor z ≤ 1 := by
  refine ⟨?_, ?_, ?_⟩
  · have h := Real.exp_bound (x := z) (abs_le.2 ⟨h1, by linarith⟩) (n := 5) (by norm_num)
    rw [abs_sub_comm]
    have e : ∑ m ∈ Finset.range 5, z ^ m / (m.factorial : ℝ) = rk4Factor z := by
      simp [Finset.sum_range_succ, rk4Factor, Nat.factorial]
    rw [e] at h
    refine h.trans (le_of_eq ?_)
    simp [Nat.factorial]
    ring
  · unfold rk4Factor; nlinarith [sq_nonneg z, sq_nonneg (z ^ 2 + 2 * z), pow_le_one₀ (n := 3) (show 0 ≤ -z by linarith) (by linarith)]
  · have : rk4Factor z = 1 + z * (1 + z / 2 + z ^ 2 / 6 + z ^ 3 / 24) := by unfold rk4Factor; ring
    rw [this]
    have : 0 ≤ 1 + z / 2 + z ^ 2 / 6 + z ^ 3 / 24 := by
      have := pow_le_one₀ (n := 3) (show 0 ≤ -z by linarith) (by linarith)
      nlinarith [sq_nonneg z]
    nlinarith

theorem prod_close (lam : ℝ) (ds : List ℝ) (hd : ∀ dt ∈ ds, 0 ≤ lam * dt ∧ lam * dt ≤ 1) :
    |(ds.map fun dt => rk4Factor (-(lam * dt))).prod - Real.exp (-(lam * ds.sum))| ≤ (ds.map fun dt => (lam * dt) ^ 5 / 100).sum ∧
      |(ds.map fun dt => rk4Factor (-(lam * dt))).prod| ≤ 1 := by
  induction ds with
  | nil => simp
  | cons dt ds ih =>
    obtain ⟨i1, i2⟩ := ih fun d h => hd d (List.mem_cons_of_mem _ h)
    obtain ⟨d0, d1⟩ := hd dt List.mem_cons_self
    obtain ⟨b1, b2, b3⟩ := exp_rk4 (-(lam * dt)) (by linarith) (by linarith)
    have hds : 0 ≤ lam * ds.sum := by
      have := List.sum_map_mul_left (r := lam) (f := id) (l := ds)
      rw [List.map_id] at this
      rw [← this]
      refine List.sum_nonneg fun x hx => ?_
      obtain ⟨d, hd', rfl⟩ := List.mem_map.1 hx
      exact (hd d (List.mem_cons_of_mem _ hd')).1
    rw [abs_neg, abs_of_nonneg d0] at b1
    simp only [List.map_cons, List.prod_cons, List.sum_cons]
    set P := (ds.map fun dt => rk4Factor (-(lam * dt))).prod
    set R := rk4Factor (-(lam * dt))
    have hE : Real.exp (-(lam * (dt + ds.sum))) = Real.exp (-(lam * dt)) * Real.exp (-(lam * ds.sum)) := by
      rw [← Real.exp_add]; congr 1; ring
    constructor
    · rw [hE]
      calc |R * P - Real.exp (-(lam * dt)) * Real.exp (-(lam * ds.sum))|
          = |(R - Real.exp (-(lam * dt))) * Real.exp (-(lam * ds.sum)) + R * (P - Real.exp (-(lam * ds.sum)))| := by congr 1; ring
        _ ≤ |R - Real.exp (-(lam * dt))| * Real.exp (-(lam * ds.sum)) + R * |P - Real.exp (-(lam * ds.sum))| := by
            refine (abs_add_le _ _).trans (le_of_eq ?_)
            rw [abs_mul, abs_mul, abs_of_nonneg b2, Real.abs_exp]
        _ ≤ _ := by
            have e1 : Real.exp (-(lam * ds.sum)) ≤ 1 := Real.exp_le_one_iff.2 (by linarith)
            nlinarith [abs_nonneg (R - Real.exp (-(lam * dt))), abs_nonneg (P - Real.exp (-(lam * ds.sum)))]
    · rw [abs_mul, abs_of_nonneg b2]
      nlinarith [abs_nonneg P]

/-- C72.  The velocity returned by `get_velocity` at the end of a run with RK4 differs at every grid point from the exact solution
`exp(-2 nu t)` times the initial velocity of the Navier-Stokes equations by at most the sum of `(2 nu dt)^5/100` over the steps. -/
theorem C72_error (p N M : Fin 2 → ℕ) (hp : ∀ i, 0 < p i) (hN : ∀ i, 4 * p i < N i) (hNM : ∀ i, N i ≤ M i) (L : Fin 2 → ℝ)
    (hL : ∀ i, L i = 2 * Real.pi * p i) (nu : ℝ) (mask : Option (RModes N → Bool)) (w : RModes N → ℂ) (r : SArr 2 (RModes N))
    (est : SArr 2 (RModes N) → SArr 2 (RModes N) → SArr 2 (RModes N) → PyF) (fuel : ℕ) (ds : List ℝ) (tstep : ℕ)
    (hd : ∀ dt ∈ ds, 0 ≤ 2 * nu * dt ∧ 2 * nu * dt ≤ 1) :
    ∃ c', runSteps (rhsNS ⟨rspace N M, scaledWaves N L, nu, mask, 0⟩
        fun r u => conv2DVortex w r u (rspace N M) (scaledWaves N L)) est fuel .RK4 tstep ds (getintegrator r (initialize2D N L)) = some c' ∧
      ∀ i x, |get_velocity (rspace N N) c'.u0 i x - Real.exp (-(2 * nu * ds.sum)) * tg2 (fun j => mesh N L j x) i| ≤
        (ds.map fun dt => (2 * nu * dt) ^ 5 / 100).sum := by
  obtain ⟨c', h, e⟩ := C72_rk4 p N M hp hN hNM L hL nu mask w r est fuel ds tstep
  refine ⟨c', h, fun i x => ?_⟩
  have hc := prod_close (2 * nu) ds hd
  rw [e]
  simp only [onMesh]
  rw [← sub_mul, abs_mul]
  have ht : |tg2 (fun j => mesh N L j x) i| ≤ 1 := by
    fin_cases i
    · simp only [tg2, Fin.zero_eta, Matrix.cons_val, abs_mul]
      exact mul_le_one₀ (Real.abs_sin_le_one _) (abs_nonneg _) (Real.abs_cos_le_one _)
    · simp only [tg2, Fin.mk_one, Matrix.cons_val, abs_mul, abs_neg]
      exact mul_le_one₀ (Real.abs_sin_le_one _) (abs_nonneg _) (Real.abs_cos_le_one _)
  exact (mul_le_of_le_one_right (abs_nonneg _) ht).trans hc.1

theorem gridEnergy2D_eq {d : ℕ} (N : Fin 2 → ℕ) (L : Fin 2 → ℝ) (hL : ∀ i, L i ≠ 0) (U : PArr d (Grid N)) :
    gridEnergy2D N L U = gridEnergy N U := by
  have h0 := hL 0
  have h1 := hL 1
  rw [gridEnergy2D, gridEnergy, Fin.prod_univ_two]
  field_simp

theorem energy_tg2 (p N : Fin 2 → ℕ) (hp : ∀ i, 0 < p i) (hN : ∀ i, 4 * p i < N i) (i : Fin 2) :
    ∑ x, onMesh N (box p) tg2 i x * onMesh N (box p) tg2 i x = (∏ i, (N i : ℝ)) / 4 := by
  rw [trig_energy N (pos2 p N hN) _ (e2_inj p hp) (e2_band p N (band2 p N hN)) _ _ (tg2_trig p N i), div_eq_mul_one_div]
  congr 1
  simp only [Fintype.sum_prod_type, Fintype.sum_bool]
  fin_cases i <;> simp [cT, sg, normSq_apply] <;> norm_num

/-- C72.  The two energies compared by the regression test of demo/TG2D.py: the energy of the computed velocity and that of the field
set there for time `t`, which is the sum of the steps, differ by at most half of the same sum. -/
theorem C72_regression (p N M : Fin 2 → ℕ) (hp : ∀ i, 0 < p i) (hN : ∀ i, 4 * p i < N i) (hNM : ∀ i, N i ≤ M i) (L : Fin 2 → ℝ)
    (hL : ∀ i, L i = 2 * Real.pi * p i) (nu : ℝ) (mask : Option (RModes N → Bool)) (w : RModes N → ℂ) (r : SArr 2 (RModes N))
    (est : SArr 2 (RModes N) → SArr 2 (RModes N) → SArr 2 (RModes N) → PyF) (fuel : ℕ) (ds : List ℝ) (tstep : ℕ)
    (hd : ∀ dt ∈ ds, 0 ≤ 2 * nu * dt ∧ 2 * nu * dt ≤ 1) :
    ∃ c', runSteps (rhsNS ⟨rspace N M, scaledWaves N L, nu, mask, 0⟩
        fun r u => conv2DVortex w r u (rspace N M) (scaledWaves N L)) est fuel .RK4 tstep ds (getintegrator r (initialize2D N L)) = some c' ∧
      gridEnergy2D N L (onMesh N L (tg2Ref nu ds.sum)) = Real.exp (-(4 * nu * ds.sum)) / 4 ∧
      |gridEnergy2D N L (get_velocity (rspace N N) c'.u0) - gridEnergy2D N L (onMesh N L (tg2Ref nu ds.sum))| ≤
        (ds.map fun dt => (2 * nu * dt) ^ 5 / 100).sum / 2 := by
  obtain ⟨c', h, e⟩ := C72_rk4 p N M hp hN hNM L hL nu mask w r est fuel ds tstep
  have hc := prod_close (2 * nu) ds hd
  have hLz : ∀ i, L i ≠ 0 := fun i => by
    have : (p i : ℝ) ≠ 0 := by exact_mod_cast (hp i).ne'
    rw [hL]; positivity
  obtain rfl : L = box p := funext hL
  have hprod : (∏ j, (N j : ℝ)) ≠ 0 := Finset.prod_ne_zero_iff.2 fun i _ => by exact_mod_cast (pos2 p N hN i).ne'
  have hE : Real.exp (-(2 * nu * ds.sum)) ^ 2 = Real.exp (-(4 * nu * ds.sum)) := by
    rw [← Real.exp_nat_mul]; congr 1; push_cast; ring
  have hr : gridEnergy2D N (box p) (onMesh N (box p) (tg2Ref nu ds.sum)) = Real.exp (-(4 * nu * ds.sum)) / 4 := by
    have he : ∀ i x, onMesh N (box p) (tg2Ref nu ds.sum) i x = Real.exp (-(2 * nu * ds.sum)) * onMesh N (box p) tg2 (1 - i) x := by
      intro i x
      fin_cases i <;> simp [onMesh, tg2Ref, tg2] <;> ring
    rw [gridEnergy2D_eq N _ hLz, gridEnergy, ← hE]
    simp only [he, Fin.sum_univ_two]
    simp only [mul_mul_mul_comm, ← Finset.mul_sum, energy_tg2 p N hp hN]
    field_simp
    ring
  refine ⟨c', h, hr, ?_⟩
  set R := (ds.map fun dt => rk4Factor (-(2 * nu * dt))).prod
  have hn : gridEnergy2D N (box p) (get_velocity (rspace N N) c'.u0) = R ^ 2 / 4 := by
    have hs : ∀ i, ∑ x, get_velocity (rspace N N) c'.u0 i x * get_velocity (rspace N N) c'.u0 i x = R ^ 2 * ((∏ i, (N i : ℝ)) / 4) := by
      intro i
      rw [← energy_tg2 p N hp hN i, Finset.mul_sum, e]
      exact Finset.sum_congr rfl fun x _ => by ring
    rw [gridEnergy2D_eq N _ hLz, gridEnergy, Finset.sum_congr rfl fun i _ => hs i, Finset.sum_const, Finset.card_univ, Fintype.card_fin]
    simp only [nsmul_eq_mul]
    push_cast
    field_simp
  rw [hr, hn, ← hE]
  have h1 : Real.exp (-(2 * nu * ds.sum)) ≤ 1 := by
    apply Real.exp_le_one_iff.2
    have : 0 ≤ 2 * nu * ds.sum := by
      have := List.sum_map_mul_left (r := 2 * nu) (f := id) (l := ds)
      rw [List.map_id] at this
      rw [← this]
      refine List.sum_nonneg fun x hx => ?_
      obtain ⟨d, hd', rfl⟩ := List.mem_map.1 hx
      exact (hd d hd').1
    linarith
  have h0 := Real.exp_pos (-(2 * nu * ds.sum))
  have h2 := abs_le.1 hc.2
  calc |R ^ 2 / 4 - Real.exp (-(2 * nu * ds.sum)) ^ 2 / 4|
      = |R - Real.exp (-(2 * nu * ds.sum))| * (|R + Real.exp (-(2 * nu * ds.sum))| / 4) := by
        rw [← abs_of_pos (show (0 : ℝ) < 4 by norm_num), ← abs_div, ← abs_mul, abs_of_pos (show (0 : ℝ) < 4 by norm_num)]
        congr 1; ring
    _ ≤ (ds.map fun dt => (2 * nu * dt) ^ 5 / 100).sum * (2 / 4) := by
        have : |R + Real.exp (-(2 * nu * ds.sum))| ≤ 2 := abs_le.2 ⟨by linarith, by linarith⟩
        exact mul_le_mul hc.1 (by linarith) (by positivity) ((abs_nonneg _).trans hc.1)
    _ = _ := by ring

/-- The parameters of demo/TG2D.py: 64 points, viscosity 0.01 and 200 steps of 0.05.  The bound is far below the tolerance of the
test. -/
example : ∃ (p N : Fin 2 → ℕ) (nu : ℝ) (ds : List ℝ), (∀ i, 0 < p i) ∧ (∀ i, 4 * p i < N i) ∧
    (∀ dt ∈ ds, 0 ≤ 2 * nu * dt ∧ 2 * nu * dt ≤ 1) ∧ ds.sum = 10 ∧ (ds.map fun dt => (2 * nu * dt) ^ 5 / 100).sum / 2 = 1e-15 := by
  refine ⟨fun _ => 1, fun _ => 64, 1 / 100, List.replicate 200 (1 / 20), by simp, by simp, ?_, ?_, ?_⟩
  · intro dt h
    obtain rfl := List.eq_of_mem_replicate h
    norm_num
  · simp only [List.sum_replicate]; norm_num
  · simp only [List.map_replicate, List.sum_replicate]; norm_num

end SpectralDNS.Demos

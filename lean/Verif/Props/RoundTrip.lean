import Verif.Lemmas.FourierInv
import Verif.Model.Demos
import Verif.Props.VV

/-!
# C70: setting and getting the velocity, grid energy and spectral energy
-/

namespace SpectralDNS.Demos

open Complex Periodic

variable {n d : ℕ}

/-- C70.  `get_velocity` after `set_velocity` returns the field, for every real field on every grid (even or odd sizes, any
number of dimensions, Nyquist modes included). -/
theorem C70_round_trip (N : Fin (n + 1) → ℕ) (hN : ∀ i, 0 < N i) (U : PArr d (Grid N)) :
    get_velocity (rspace N N) (set_velocity (rspace N N) U) = U := by
  funext i
  exact backward_forward N hN (U i)

/-- C70.  No two fields have the same coefficients. -/
theorem C70_injective (N : Fin (n + 1) → ℕ) (hN : ∀ i, 0 < N i) :
    Function.Injective (set_velocity (d := d) (rspace N N)) :=
  Function.LeftInverse.injective (C70_round_trip N hN)

/-- C70.  Coefficients without Nyquist modes and with the symmetry of a real field are returned by `set_velocity` after `get_velocity`,
also on a padded grid. -/
theorem C70_coefficients (N M : Fin (n + 1) → ℕ) (hN : ∀ i, 0 < N i) (hNM : ∀ i, N i ≤ M i) (u : SArr d (RModes N))
    (hmask : ∀ i k, nyquistMask N k = false → u i k = 0)
    (hherm : ∀ i k k', (∀ j, waves N j k' = -waves N j k) → u i k' = (starRingEnd ℂ) (u i k)) :
    set_velocity (rspace N M) (get_velocity (rspace N M) u) = u := by
  funext i
  exact rspace_inverse N M hN hNM (u i) (hmask i) (hherm i)

theorem card_grid (N : Fin (n + 1) → ℕ) : (Fintype.card (Grid N) : ℝ) = ∏ j, (N j : ℝ) := by
  simp [Fintype.card_pi]

theorem adjoint_energy (N M : Fin (n + 1) → ℕ) (u : SArr d (RModes N)) (U : PArr d (Grid M)) (h1 : set_velocity (rspace N M) U = u)
    (h2 : get_velocity (rspace N M) u = U) : energyFourier N u / 2 = gridEnergy M U := by
  have h : ∀ i, ∑ k, rweight N k * Complex.normSq (u i k) = (1 / Fintype.card (Grid M) : ℝ) * ∑ x, U i x * U i x := by
    intro i
    have h := dft_adjoint (kernel (waves N) M) (rweight N) (u i) (U i)
    have e1 : (dft (kernel (waves N) M) (rweight N)).forward (U i) = u i := congrFun h1 i
    have e2 : (dft (kernel (waves N) M) (rweight N)).backward (u i) = U i := congrFun h2 i
    rw [e1, e2] at h
    rw [show (∑ k, rweight N k * Complex.normSq (u i k)) = ∑ k, rweight N k * ((starRingEnd ℂ) (u i k) * u i k).re from
      Finset.sum_congr rfl fun k _ => by rw [← Complex.normSq_eq_conj_mul_self, Complex.ofReal_re]]
    rw [h]
  rw [gridEnergy, ← card_grid, energyFourier]
  have h3 : ∑ k, rweight N k * ∑ i, Complex.normSq (u i k) = ∑ i, ∑ k, rweight N k * Complex.normSq (u i k) := by
    rw [Finset.sum_comm]
    exact Finset.sum_congr rfl fun k _ => Finset.mul_sum _ _ _
  rw [h3, Finset.sum_congr rfl fun i _ => h i, ← Finset.mul_sum]
  ring

/-- C70.  The energy computed from the coefficients is the energy computed from the grid values: the number `ww2-kk` printed by the
Taylor-Green demo is zero at the start, for every field. -/
theorem C70_energy_start (N : Fin (n + 1) → ℕ) (hN : ∀ i, 0 < N i) (U : PArr d (Grid N)) :
    energyFourier N (set_velocity (rspace N N) U) / 2 = gridEnergy N U :=
  adjoint_energy N N _ U rfl (C70_round_trip N hN U)

/-- C70.  ... and stays zero for every state whose coefficients have no Nyquist modes and belong to a real field, on the solver's own
and on any finer grid. -/
theorem C70_energy_state (N M : Fin (n + 1) → ℕ) (hN : ∀ i, 0 < N i) (hNM : ∀ i, N i ≤ M i) (u : SArr d (RModes N))
    (hmask : ∀ i k, nyquistMask N k = false → u i k = 0)
    (hherm : ∀ i k k', (∀ j, waves N j k' = -waves N j k) → u i k' = (starRingEnd ℂ) (u i k)) :
    energyFourier N u / 2 = gridEnergy M (get_velocity (rspace N M) u) :=
  adjoint_energy N M u _ (C70_coefficients N M hN hNM u hmask hherm) rfl

/-- C70.  With the vorticity as primary variable the velocity comes back if it is divergence free with zero mean. -/
theorem C70_vorticity (N : Fin 3 → ℕ) (hN : ∀ i, 0 < N i) (L : Fin 3 → ℝ) (U : PArr 3 (Grid N)) (s w : SArr 3 (RModes N))
    (hdiv : Spec.Solenoidal (scaledWaves N L) (set_velocity (rspace N N) U))
    (hmean : Spec.ZeroMean (scaledWaves N L) (set_velocity (rspace N N) U)) :
    compute_velocity s (cross2_3d w (scaledWaves N L) (set_velocity (rspace N N) U)) (rspace N N) (K_over_K2 (scaledWaves N L)) = U := by
  have h : velocityHat s (cross2_3d w (scaledWaves N L) (set_velocity (rspace N N) U)) (K_over_K2 (scaledWaves N L)) =
      set_velocity (rspace N N) U := by
    funext i k
    by_cases hk : K2 (scaledWaves N L) k = 0
    · have hk := (K2_eq_zero _ k).1 hk
      rw [velocityHat_zero _ _ _ k hk, hmean k hk i]
    · have hk' : (K2 (scaledWaves N L) k : ℂ) ≠ 0 := by exact_mod_cast hk
      apply mul_left_cancel₀ hk'
      rw [velocityHat_mul, cross2_3d_eq, curl_curl, hdiv k, mul_zero, sub_zero]
  rw [compute_velocity, h]
  exact C70_round_trip N hN U

/-- A field with Nyquist modes only, on a grid with an even number of points: the round trip is not trivial there. -/
example : ∃ U : PArr 1 (Grid fun _ : Fin 1 => 4), U ≠ 0 ∧
    get_velocity (rspace (fun _ : Fin 1 => 4) fun _ => 4) (set_velocity (rspace (fun _ : Fin 1 => 4) fun _ => 4) U) = U :=
  ⟨fun _ x => (-1) ^ (x 0 : ℕ), fun h => by simpa using congrFun (congrFun h 0) fun _ => (0 : Fin 4), C70_round_trip _ (by decide) _⟩

end SpectralDNS.Demos

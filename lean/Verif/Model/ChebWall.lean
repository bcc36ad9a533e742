import Verif.Model.Galerkin
import Verif.Model.ChannelConv
import Verif.Props.LUsolve
import Mathlib.LinearAlgebra.Matrix.NonsingularInverse

/-!
# The wall-normal direction with the Chebyshev bases: KMM.py:26-28, 61
-/

namespace SpectralDNS.Channel

open Polynomial Periodic

/-- Shenfun's `project` onto a space: scalar products with the basis functions, then the solution of the system with the mass matrix. -/
noncomputable def projectOnto (q : Quad) (N : ℕ) (f : ℕ → ℝ[X]) {a : ℕ} : ℂ[X] →ₗ[ℂ] (Fin a → ℂ) :=
  matC (entry q N f f 0 a a)⁻¹ ∘ₗ scalarProduct q N f

/-- `forward` along the wall-normal axis: the same from the values at the quadrature points. -/
noncomputable def forwardWall (q : Quad) (N : ℕ) (f : ℕ → ℝ[X]) {a : ℕ} : (Fin N → ℂ) →ₗ[ℂ] (Fin a → ℂ) :=
  matC (entry q N f f 0 a a)⁻¹ ∘ₗ
    LinearMap.pi fun i => ∑ j : Fin N, ((quadWeight q N j * (f i).eval (quadPoint q N j) : ℝ) : ℂ) • LinearMap.proj j

/-- An array of `N[0] = n + 4` entries of which the Dirichlet coefficients are the first `n + 2`. -/
def padD {a : ℕ} (d : Fin a → ℂ) (i : ℕ) : ℂ := if h : i < a then d ⟨i, h⟩ else 0

/-- `Mult_CTD` (LUsolve.pyx:116-160) on one column. -/
noncomputable def multCTD (n : ℕ) : (Fin (n + 2) → ℂ) →ₗ[ℂ] (Fin (n + 4) → ℂ) where
  toFun d i := (LUsolve.multCTD1D (n + 4) (padD d) 0 0 0 0 1).1 i
  map_add' x y := by
    funext i
    have key : ∀ v : ℕ → ℂ, (LUsolve.multCTD1D (n + 4) v 0 0 0 0 1).1 i = LUsolve.dcoef (n + 4) v i := fun v => by
      have := (LUsolve.multCTD1D_spec (N := n + 4) (p := 0) (st := 1) (by omega) one_pos v 0 0 0).1.1 i i.2
      simpa using this
    have hp : padD (x + y) = padD x + padD y := by
      funext j; simp only [padD, Pi.add_apply]; split_ifs <;> simp
    have ht : ∀ (v w : ℕ → ℂ) m, LUsolve.tail (n + 4) (v + w) m = LUsolve.tail (n + 4) v m + LUsolve.tail (n + 4) w m := fun v w m => by
      simp only [LUsolve.tail, ← Finset.sum_add_distrib]
      exact Finset.sum_congr rfl fun j _ => by split_ifs <;> simp
    have he : ∀ (v w : ℕ → ℂ) m, LUsolve.ext (n + 4) (v + w) m = LUsolve.ext (n + 4) v m + LUsolve.ext (n + 4) w m := fun v w m => by
      simp only [LUsolve.ext]; split_ifs <;> simp
    simp only [Pi.add_apply, key, hp, LUsolve.dcoef, ht, he]
    split_ifs <;> ring
  map_smul' c x := by
    funext i
    have key : ∀ v : ℕ → ℂ, (LUsolve.multCTD1D (n + 4) v 0 0 0 0 1).1 i = LUsolve.dcoef (n + 4) v i := fun v => by
      have := (LUsolve.multCTD1D_spec (N := n + 4) (p := 0) (st := 1) (by omega) one_pos v 0 0 0).1.1 i i.2
      simpa using this
    have hp : padD (c • x) = c • padD x := by
      funext j; simp only [padD, Pi.smul_apply]; split_ifs <;> simp
    have ht : ∀ (v : ℕ → ℂ) m, LUsolve.tail (n + 4) (c • v) m = c * LUsolve.tail (n + 4) v m := fun v m => by
      simp only [LUsolve.tail, Finset.mul_sum]
      exact Finset.sum_congr rfl fun j _ => by split_ifs <;> simp
    have he : ∀ (v : ℕ → ℂ) m, LUsolve.ext (n + 4) (c • v) m = c * LUsolve.ext (n + 4) v m := fun v m => by
      simp only [LUsolve.ext]; split_ifs <;> simp
    simp only [Pi.smul_apply, key, hp, LUsolve.dcoef, ht, he, RingHom.id_apply, smul_eq_mul]
    split_ifs <;> ring

/-- The wall-normal direction (KMM.py:26-28) for `N[0] = n + 4`.  `toB`, `toD`: the arrays have `n + 4` entries; a function of the
biharmonic space ignores all but the first `n`. -/
noncomputable def chebWall (q : Quad) (n : ℕ) : Wall (Fin n → ℂ) (Fin (n + 2) → ℂ) (Fin (n + 4) → ℂ) (Fin (n + 4)) where
  fB := expandC psi
  fD := expandC phi
  fC := expandC fun j => Chebyshev.T ℝ (j : ℤ)
  x j := quadPoint q (n + 4) j
  fwd := forwardWall q (n + 4) phi
  projB := projectOnto q (n + 4) psi
  projD := projectOnto q (n + 4) phi
  projC := projectOnto q (n + 4) fun j => Chebyshev.T ℝ (j : ℤ)
  ctd := multCTD n
  toB := LinearMap.pi fun i => LinearMap.proj ⟨i, by omega⟩
  toD := LinearMap.pi fun i => if h : (i : ℕ) < n then LinearMap.proj ⟨i, h⟩ else 0

/-- `K = FST.local_wavenumbers(scaled=True)` (KMM.py:29-30, 61) for a box with periodic sides `L 0`, `L 1` and `N 0`, `N 1` points along
them; `K[1]`, `K[2]` in KMM.py also multiply the convection. -/
noncomputable def waveGrid (N : Fin 2 → ℕ) (L : Fin 2 → ℝ) (hN : ∀ i, 0 < N i) : Grid (RModes N) where
  K1 := scaledWaves N L 0
  K2 := scaledWaves N L 1
  X1 := scaledWaves N L 0
  X2 := scaledWaves N L 1
  zero i := ⟨0, by
    unfold rdim
    split
    · omega
    · exact hN i⟩

end SpectralDNS.Channel

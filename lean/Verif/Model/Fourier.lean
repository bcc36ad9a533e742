import Verif.Model.Periodic
import Mathlib.Analysis.SpecialFunctions.Complex.Circle
import Mathlib.Data.Fintype.Pi
import Mathlib.Data.Fintype.BigOperators

/-!
# A concrete pair of discrete Fourier transforms

What shenfun's `TensorProductSpace` computes for the bases created at solvers/NS.py:17-25 (real transform along the last
axis, complex along the others), written as the defining sums; the FFT algorithm, the parallel redistribution and the
dtype are not modelled.  shenfun scales the forward transform.
-/

namespace SpectralDNS.Periodic

open Complex

/-- Transforms with kernel `e`: `forward f k = 1/|X| sum_x f(x) conj e(k,x)`, `backward a x = Re sum_k w_k a_k e(k,x)`; the
weight of a mode is the number of modes it represents (half spectrum). -/
noncomputable def dft {ι X : Type*} [Fintype ι] [Fintype X] (e : ι → X → ℂ) (w : ι → ℝ) : Space ι X where
  forward f k := (1 / (Fintype.card X : ℂ)) * ∑ x, (f x : ℂ) * (starRingEnd ℂ) (e k x)
  backward a x := (∑ k, (w k : ℂ) * a k * e k x).re

/-- Points of a grid with `M i` points along axis `i`. -/
abbrev Grid {d : ℕ} (M : Fin d → ℕ) := (i : Fin d) → Fin (M i)

/-- `exp(i k.x)` at the points of the grid. -/
noncomputable def kernel {d : ℕ} {ι : Type*} (waves : Fin d → ι → ℤ) (M : Fin d → ℕ) (k : ι) (x : Grid M) : ℂ :=
  Complex.exp (2 * Real.pi * I * ∑ i, (waves i k : ℂ) * ((x i : ℕ) : ℂ) / (M i : ℂ))

/-- Number of stored coefficients along each axis: `N/2 + 1` for the last one (real transform), `N` for the others. -/
def rdim {n : ℕ} (N : Fin (n + 1) → ℕ) (i : Fin (n + 1)) : ℕ := if i = Fin.last n then N i / 2 + 1 else N i

/-- Mode indices of the array of a real-to-complex transform (solvers/NS.py:18-25). -/
abbrev RModes {n : ℕ} (N : Fin (n + 1) → ℕ) := (i : Fin (n + 1)) → Fin (rdim N i)

/-- Wavenumber mesh of the array, unscaled (`T.local_wavenumbers` on one rank, solvers/NS.py:38): `0, ..., N/2` along the
last axis, FFT order `0, 1, ..., -2, -1` (with `-N/2` for the Nyquist entry) along the others. -/
def waves {n : ℕ} (N : Fin (n + 1) → ℕ) (i : Fin (n + 1)) (k : RModes N) : ℤ :=
  if i = Fin.last n then ((k i : ℕ) : ℤ) else if 2 * (k i : ℕ) < N i then ((k i : ℕ) : ℤ) else ((k i : ℕ) : ℤ) - N i

/-- Number of modes represented by an entry of the half spectrum. -/
def rweight {n : ℕ} (N : Fin (n + 1) → ℕ) (k : RModes N) : ℝ :=
  if waves N (Fin.last n) k = 0 ∨ 2 * waves N (Fin.last n) k = N (Fin.last n) then 1 else 2

/-- `T.get_mask_nyquist()` (solvers/NS.py:34): false for the modes having the Nyquist wavenumber of an even axis. -/
def nyquistMask {n : ℕ} (N : Fin (n + 1) → ℕ) (k : RModes N) : Bool :=
  decide (∀ i, 2 * waves N i k ≠ N i ∧ 2 * waves N i k ≠ -(N i : ℤ))

/-- The transforms of the solvers: `rfftn`/`irfftn` on a grid with `M` points, `M = N` without padding, larger with the
3/2-rule (solvers/NS.py:29-31). -/
noncomputable def rspace {n : ℕ} (N M : Fin (n + 1) → ℕ) : Space (RModes N) (Grid M) := dft (kernel (waves N) M) (rweight N)

/-- The scaled wavenumbers for a box with sides `L` (`T.local_wavenumbers(scaled=True)`, solvers/NS.py:38). -/
noncomputable def scaledWaves {n : ℕ} (N : Fin (n + 1) → ℕ) (L : Fin (n + 1) → ℝ) : Fin (n + 1) → RModes N → ℝ :=
  fun i k => 2 * Real.pi / L i * waves N i k

end SpectralDNS.Periodic

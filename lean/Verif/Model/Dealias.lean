import Verif.Model.Fourier
import Mathlib.Data.Rat.Defs

/-!
# The dealiasing rules

Exact arithmetic: the double `2./3.*(N//2+1)` differs from the rational number by rounding, which does not change the comparison with
integers (the double 2/3 is below 2/3 and rounding is monotone).
-/

namespace SpectralDNS.Dealias

/-- spectralDNS3D_short.py:44 `kmax_dealias = 2./3.*(N//2+1)` and cpp/spectralDNS.cpp:122 `kmax = 2./3.*(N/2+1)`. -/
def kmax (N : ℕ) : ℚ := 2 / 3 * ((N / 2 + 1 : ℕ) : ℚ)

/-- spectralDNS3D_short.py:45-46, cpp/spectralDNS.cpp:128: one axis of the mask for the wavenumber `k`. -/
def kept (N : ℕ) (k : ℤ) : Bool := decide (|(k : ℚ)| < kmax N)

/-- spectralDNS3D_short.py:45-46: the mask on the three axes. -/
def dealias (N : ℕ) (k : Fin 3 → ℤ) : Bool := kept N (k 0) && kept N (k 1) && kept N (k 2)

/-- solvers/NS.py:29 with `padding_factor = 1.5`: number of quadrature points along an axis with `N` modes (shenfun rounds down). -/
def padded (N : ℕ) : ℕ := 3 * N / 2

end SpectralDNS.Dealias

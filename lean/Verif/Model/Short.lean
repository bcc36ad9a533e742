import Verif.Model.Periodic
import Verif.Model.Dealias
import Mathlib.Analysis.SpecialFunctions.Complex.Circle
import Mathlib.Data.Fintype.BigOperators
import Mathlib.Logic.Equiv.Fin.Basic

/-!
# Model of the stand-alone solvers spectralDNS3D_short.py and cpp/spectralDNS.cpp

Arrays of one rank are functions of their indices; a distributed array is a function of the rank.  numpy's `reshape` that splits an axis
of length `P*Np` in C order into axes of lengths `P`, `Np` is the bijection `finProdFinEquiv : (q, a) ↦ a + Np*q`.  In `run` the
number of time steps is an argument; `script` is the loop with its test `t < T-1e-8` (in real arithmetic).
-/

namespace SpectralDNS.Short

open Complex Periodic

/-! ## The discrete transforms (numpy.fft, by their defining sums) -/

/-- `exp(2 pi i n/N)`. -/
noncomputable def root (N : ℕ) (n : ℤ) : ℂ := Complex.exp (2 * Real.pi * I * ((n : ℂ) / (N : ℂ)))

/-- `numpy.fft.fft`. -/
noncomputable def fft {N : ℕ} (f : Fin N → ℂ) (k : Fin N) : ℂ := ∑ x : Fin N, f x * root N (-((k : ℕ) * (x : ℕ) : ℤ))

/-- `numpy.fft.ifft`. -/
noncomputable def ifft {N : ℕ} (g : Fin N → ℂ) (x : Fin N) : ℂ := (1 / (N : ℂ)) * ∑ k : Fin N, g k * root N ((k : ℕ) * (x : ℕ) : ℤ)

/-- `numpy.fft.rfft`. -/
noncomputable def rfft {N : ℕ} (f : Fin N → ℝ) (k : Fin (N / 2 + 1)) : ℂ := ∑ x : Fin N, (f x : ℂ) * root N (-((k : ℕ) * (x : ℕ) : ℤ))

/-- `numpy.fft.irfft` for even `N`: the entries 0 and `N/2` count once and only with their real part, the others stand for two. -/
noncomputable def irfft {N : ℕ} (c : Fin (N / 2 + 1) → ℂ) (x : Fin N) : ℝ :=
  (1 / (N : ℝ)) * ∑ k : Fin (N / 2 + 1), (if (k : ℕ) = 0 ∨ 2 * (k : ℕ) = N then 1 else 2) * (c k * root N ((k : ℕ) * (x : ℕ) : ℤ)).re

/-- `numpy.fft.rfft2` over the last two axes. -/
noncomputable def rfft2 {N : ℕ} (f : Fin N → Fin N → ℝ) (k1 : Fin N) (k2 : Fin (N / 2 + 1)) : ℂ := fft (fun x1 => rfft (f x1) k2) k1

/-- `numpy.fft.irfft2` over the last two axes. -/
noncomputable def irfft2 {N : ℕ} (c : Fin N → Fin (N / 2 + 1) → ℂ) (x1 x2 : Fin N) : ℝ := irfft (fun k2 => ifft (fun k1 => c k1 k2) x1) x2

/-! ## Slab decomposition -/

section slab

variable {P n F : ℕ}

/-- Row `a` of the block of rank `q` (spectralDNS3D_short.py:27, `rank*Np:(rank+1)*Np`). -/
def glob (q : Fin P) (a : Fin n) : Fin (P * n) := finProdFinEquiv (q, a)

/-- Block and row of a global index. -/
def split (j : Fin (P * n)) : Fin P × Fin n := finProdFinEquiv.symm j

/-- spectralDNS3D_short.py:52: `rollaxis(A.reshape(Np, num_processes, Np, N//2+1), 1).reshape(fu.shape)`. -/
def pack (A : Fin n → Fin (P * n) → Fin F → ℂ) : Fin (P * n) → Fin n → Fin F → ℂ := fun j b c => A (split j).2 (glob (split j).1 b) c

/-- spectralDNS3D_short.py:60: `rollaxis(A.reshape((num_processes, Np, Np, N//2+1)), 1).reshape(Uc_hatT.shape)`. -/
def unpack (A : Fin (P * n) → Fin n → Fin F → ℂ) : Fin n → Fin (P * n) → Fin F → ℂ := fun a j c => A (glob (split j).1 a) (split j).2 c

/-- `comm.Alltoall(MPI.IN_PLACE, [fu, ...])` (spectralDNS3D_short.py:53, 59): block `q` of rank `p` becomes block `p` of rank `q`. -/
def alltoall (B : Fin P → Fin (P * n) → Fin n → Fin F → ℂ) : Fin P → Fin (P * n) → Fin n → Fin F → ℂ :=
  fun p j b c => B (split j).1 (glob p (split j).2) b c

/-- `fftn_mpi` (spectralDNS3D_short.py:50-55) on all ranks. -/
noncomputable def fftn_mpi (u : Fin P → Fin n → Fin (P * n) → Fin (P * n) → ℝ) : Fin P → Fin (P * n) → Fin n → Fin (P * n / 2 + 1) → ℂ :=
  let A := fun p a => rfft2 (u p a)
  let B := fun p => pack (A p)
  let B := alltoall B
  fun p k b c => fft (fun x => B p x b c) k

/-- `ifftn_mpi` (spectralDNS3D_short.py:57-62) on all ranks. -/
noncomputable def ifftn_mpi (fu : Fin P → Fin (P * n) → Fin n → Fin (P * n / 2 + 1) → ℂ) :
    Fin P → Fin n → Fin (P * n) → Fin (P * n) → ℝ :=
  let A := fun p x b c => ifft (fun k => fu p k b c) x
  let A := alltoall A
  let B := fun p => unpack (A p)
  fun p a => irfft2 (B p a)

end slab

/-! ## The solver -/

variable {ι X : Type*}

/-- The global arrays and numbers of spectralDNS3D_short.py:19-48: transforms, wavenumbers `K`, `dealias`, `nu`, `dt`. -/
structure Setup (ι X : Type*) where
  T : Space ι X
  K : Fin 3 → ι → ℝ
  dealias : ι → Bool
  nu : ℝ
  dt : ℝ

/-- spectralDNS3D_short.py:64-68 `Cross`. -/
def Cross (s : Setup ι X) (a b : PArr 3 X) : SArr 3 ι := fun i =>
  match i with
  | 0 => s.T.forward (a 1 * b 2 - a 2 * b 1)
  | 1 => s.T.forward (a 2 * b 0 - a 0 * b 2)
  | 2 => s.T.forward (a 0 * b 1 - a 1 * b 0)

/-- spectralDNS3D_short.py:70-74 `Curl`. -/
noncomputable def Curl (s : Setup ι X) (a : SArr 3 ι) : PArr 3 X := fun i =>
  match i with
  | 2 => s.T.backward fun k => I * (s.K 0 k * a 1 k - s.K 1 k * a 0 k)
  | 1 => s.T.backward fun k => I * (s.K 2 k * a 0 k - s.K 0 k * a 2 k)
  | 0 => s.T.backward fun k => I * (s.K 1 k * a 2 k - s.K 2 k * a 1 k)

/-- spectralDNS3D_short.py:76-86 `ComputeRHS` after the update of `U`. -/
noncomputable def rhs (s : Setup ι X) (U : PArr 3 X) (U_hat : SArr 3 ι) : SArr 3 ι :=
  let curl := Curl s U_hat
  let dU := Cross s U curl
  let dU : SArr 3 ι := fun i k => dU i k * (if s.dealias k then 1 else 0)
  let P_hat : ι → ℂ := fun k => ∑ i, dU i k * K_over_K2 s.K i k
  let dU : SArr 3 ι := fun i k => dU i k - P_hat k * s.K i k
  fun i k => dU i k - (s.nu * K2 s.K k : ℝ) * U_hat i k

/-- The arrays that survive a step: `U_hat` and `U`. -/
structure State (ι X : Type*) where
  U_hat : SArr 3 ι
  U : PArr 3 X

/-- spectralDNS3D_short.py:47 -/
noncomputable def a : ℕ → ℝ := fun rk => if rk = 0 then 1 / 6 else if rk = 1 then 1 / 3 else if rk = 2 then 1 / 3 else 1 / 6
/-- spectralDNS3D_short.py:48 -/
noncomputable def b : ℕ → ℝ := fun rk => if rk = 0 then 0.5 else if rk = 1 then 0.5 else 1

/-- Body of `for rk in range(4)` (spectralDNS3D_short.py:101-105, 77-79); `u0` is `U_hat0`, the state is extended by `U_hat1`. -/
noncomputable def stage (s : Setup ι X) (u0 : SArr 3 ι) (st : State ι X × SArr 3 ι) (rk : ℕ) : State ι X × SArr 3 ι :=
  let U := if rk > 0 then s.T.vbackward st.1.U_hat else st.1.U
  let dU := rhs s U st.1.U_hat
  let U_hat := if rk < 3 then u0 + (b rk * s.dt) • dU else st.1.U_hat
  (⟨U_hat, U⟩, st.2 + (a rk * s.dt) • dU)

/-- One pass of the loop spectralDNS3D_short.py:97-108. -/
noncomputable def step (s : Setup ι X) (st : State ι X) : State ι X :=
  let r := (List.range 4).foldl (stage s st.U_hat) (st, st.U_hat)
  ⟨r.2, s.T.vbackward r.2⟩

/-- spectralDNS3D_short.py:88-108: start from the velocity `U`, then `m` steps. -/
noncomputable def run (s : Setup ι X) (U : PArr 3 X) (m : ℕ) : State ι X := (step s)^[m] ⟨s.T.vforward U, U⟩

/-- spectralDNS3D_short.py:97, `while t < T-1e-8` (lines 97-108), on the clock `t`, the number `tstep` and the arrays; `none` if the loop has not
ended after `fuel` tests. -/
noncomputable def loop (s : Setup ι X) (T : ℝ) : ℕ → ℝ × ℕ × State ι X → Option (ℝ × ℕ × State ι X)
  | 0, _ => none
  | fuel + 1, st => if st.1 < T - 1e-8 then loop s T fuel (st.1 + s.dt, st.2.1 + 1, step s st.2.2) else some st

/-- spectralDNS3D_short.py:88-108. -/
noncomputable def script (s : Setup ι X) (U : PArr 3 X) (T : ℝ) (fuel : ℕ) : Option (ℝ × ℕ × State ι X) :=
  loop s T fuel (0, 0, ⟨s.T.vforward U, U⟩)

/-! ## The program of cpp/spectralDNS.cpp

`K` holds the wavenumbers used by the program (`kx[i]`, `kx[j]`, `kz[k]`), the transforms are FFTW's with the division by `tot`
(lines 172-180) included in the backward one.  That FFTW's multidimensional complex-to-real transforms may destroy their input is not
modelled. -/

/-- cpp/spectralDNS.cpp:131-138: `kk = m > 0 ? m : 1`. -/
noncomputable def kk (K : Fin 3 → ι → ℝ) (k : ι) : ℝ := if K2 K k > 0 then K2 K k else 1

/-- cpp/spectralDNS.cpp:182-236; the result includes the factor `dt`. -/
noncomputable def rhsCpp (s : Setup ι X) (U : PArr 3 X) (U_hat : SArr 3 ι) : SArr 3 ι :=
  let curl := Curl s U_hat
  let dU := Cross s U curl
  let dU : SArr 3 ι := fun i k => dU i k * ((if s.dealias k then 1 else 0) * s.dt : ℝ)
  let P_hat : ι → ℂ := fun k => (dU 0 k * s.K 0 k + dU 1 k * s.K 1 k + dU 2 k * s.K 2 k) / kk s.K k
  fun i k => dU i k - (P_hat k * s.K i k + (s.nu * s.dt * kk s.K k : ℝ) * U_hat i k)

/-- cpp/spectralDNS.cpp:168-260, one stage. -/
noncomputable def stageCpp (s : Setup ι X) (u0 : SArr 3 ι) (st : State ι X × SArr 3 ι) (rk : ℕ) : State ι X × SArr 3 ι :=
  let U := if rk > 0 then s.T.vbackward st.1.U_hat else st.1.U
  let dU := rhsCpp s U st.1.U_hat
  let U_hat := if rk < 3 then u0 + b rk • dU else st.1.U_hat
  (⟨U_hat, U⟩, st.2 + a rk • dU)

/-- cpp/spectralDNS.cpp:145-269, one step: `U` is not recomputed from the new `U_hat`. -/
noncomputable def stepCpp (s : Setup ι X) (st : State ι X) : State ι X :=
  let r := (List.range 4).foldl (stageCpp s st.U_hat) (st, st.U_hat)
  ⟨r.2, r.1.U⟩

/-- cpp/spectralDNS.cpp:108-269. -/
noncomputable def runCpp (s : Setup ι X) (U : PArr 3 X) (m : ℕ) : State ι X := (stepCpp s)^[m] ⟨s.T.vforward U, U⟩

/-! ## The distributed and the serial set-up -/

/-- Wavenumber of entry `k` of `fftfreq(N, 1./N)` (spectralDNS3D_short.py:38). -/
def freq (N : ℕ) (k : Fin N) : ℤ := if 2 * (k : ℕ) < N then (k : ℕ) else (k : ℕ) - (N : ℤ)

/-- spectralDNS3D_short.py:39-40: `kz = kx[:(N//2+1)]; kz[-1] *= -1`, that is `0, ..., N/2` for even `N`. -/
def freqz (N : ℕ) (k : Fin (N / 2 + 1)) : ℤ := (k : ℕ)

/-- Indices of the arrays in one piece. -/
abbrev Modes (N : ℕ) := Fin N × Fin N × Fin (N / 2 + 1)
/-- Grid points. -/
abbrev Points (N : ℕ) := Fin N × Fin N × Fin N

/-- Wavenumbers (spectralDNS3D_short.py:41 with one rank). -/
def waves (N : ℕ) (k : Modes N) (i : Fin 3) : ℤ :=
  match i with
  | 0 => freq N k.1
  | 1 => freq N k.2.1
  | 2 => freqz N k.2.2

/-- `fftn_mpi` and `ifftn_mpi` with one rank: the transforms of the whole array. -/
noncomputable def serial (N : ℕ) : Space (Modes N) (Points N) where
  forward f k := fft (fun x => rfft2 (fun y z => f (x, y, z)) k.2.1 k.2.2) k.1
  backward c x := irfft2 (fun k1 k2 => ifft (fun k0 => c (k0, k1, k2)) x.1) x.2.1 x.2.2

/-- The program on one rank. -/
noncomputable def setup (N : ℕ) (nu dt : ℝ) : Setup (Modes N) (Points N) where
  T := serial N
  K := fun i k => waves N k i
  dealias := fun k => Dealias.dealias N (waves N k)
  nu := nu
  dt := dt

/-- spectralDNS3D_short.py:27 on one rank: `X = mgrid[...].astype(float)*2*pi/N`. -/
noncomputable def mesh (N : ℕ) (i : Fin 3) (x : Points N) : ℝ :=
  match i with
  | 0 => (x.1 : ℕ) * 2 * Real.pi / N
  | 1 => (x.2.1 : ℕ) * 2 * Real.pi / N
  | 2 => (x.2.2 : ℕ) * 2 * Real.pi / N

/-- spectralDNS3D_short.py:88-90: the initial velocity. -/
noncomputable def initial (N : ℕ) : PArr 3 (Points N) := fun i x =>
  match i with
  | 0 => Real.sin (mesh N 0 x) * Real.cos (mesh N 1 x) * Real.cos (mesh N 2 x)
  | 1 => -Real.cos (mesh N 0 x) * Real.sin (mesh N 1 x) * Real.cos (mesh N 2 x)
  | 2 => 0

/-- spectralDNS3D_short.py:110 on one rank: `0.5*sum(U*U)*(1./N)**3`. -/
noncomputable def kinetic (N : ℕ) (U : PArr 3 (Points N)) : ℝ := 0.5 * (∑ i, ∑ x, U i x * U i x) * (1 / (N : ℝ)) ^ 3

/-- Indices of the distributed arrays: rank, then the local indices (spectralDNS3D_short.py:28-37). -/
abbrev DModes (P n : ℕ) := Fin P × Fin (P * n) × Fin n × Fin (P * n / 2 + 1)
/-- The same for the physical arrays. -/
abbrev DPoints (P n : ℕ) := Fin P × Fin n × Fin (P * n) × Fin (P * n)

/-- Local wavenumbers of a rank (spectralDNS3D_short.py:41: `meshgrid(kx, kx[rank*Np:(rank+1)*Np], kz)`). -/
def dwaves (P n : ℕ) (k : DModes P n) (i : Fin 3) : ℤ :=
  match i with
  | 0 => freq (P * n) k.2.1
  | 1 => freq (P * n) (glob k.1 k.2.2.1)
  | 2 => freqz (P * n) k.2.2.2

/-- The program on `P` ranks: all arrays of all ranks. -/
noncomputable def dsetup (P n : ℕ) (nu dt : ℝ) : Setup (DModes P n) (DPoints P n) where
  T := ⟨fun f k => fftn_mpi (fun p a y z => f (p, a, y, z)) k.1 k.2.1 k.2.2.1 k.2.2.2,
        fun c x => ifftn_mpi (fun p k b m => c (p, k, b, m)) x.1 x.2.1 x.2.2.1 x.2.2.2⟩
  K := fun i k => dwaves P n k i
  dealias := fun k => Dealias.dealias (P * n) (dwaves P n k)
  nu := nu
  dt := dt

end SpectralDNS.Short

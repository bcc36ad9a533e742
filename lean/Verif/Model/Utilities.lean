import Mathlib.Analysis.SpecialFunctions.Trigonometric.Basic
import Mathlib.Algebra.BigOperators.Fin

/-!
# utilities/__init__.py: `Timer` and `dx`; demo/MKM.py: `Stats`
-/

namespace SpectralDNS.Utilities

open Finset

/-! ## Timer -/

/-- The attributes of a `Timer` (utilities/__init__.py:27-31). -/
structure Timer where
  fastest : ℝ
  slowest : ℝ
  t0 : ℝ
  tic : ℝ

/-- `Timer.__init__` (utilities/__init__.py:27-31) with the clock showing `now`. -/
noncomputable def Timer.init (now : ℝ) : Timer := ⟨1e8, 0, now, now⟩

/-- `Timer.__call__` (utilities/__init__.py:33-39) with the clock showing `now`. -/
noncomputable def Timer.call (tm : Timer) (now : ℝ) : Timer :=
  let t1 := now
  let dt := t1 - tm.t0
  ⟨min dt tm.fastest, max dt tm.slowest, t1, tm.tic⟩

/-- A timer created at `now` and called at the times in the list (one call per time step, __init__.py:105). -/
noncomputable def Timer.run (now : ℝ) (clock : List ℝ) : Timer := clock.foldl Timer.call (Timer.init now)

/-- `Timer.final` (utilities/__init__.py:41-62): the pairs printed by rank 0, from the timers of `n + 1` ranks. -/
noncomputable def Timer.final {n : ℕ} (tm : Fin (n + 1) → Timer) : (ℝ × ℝ) × (ℝ × ℝ) :=
  ((univ.inf' univ_nonempty fun r => (tm r).fastest, univ.inf' univ_nonempty fun r => (tm r).slowest),
    (univ.sup' univ_nonempty fun r => (tm r).fastest, univ.sup' univ_nonempty fun r => (tm r).slowest))

/-! ## dx -/

/-- The part of a physical array held by one rank: a block of wall-normal indices times a block of the other indices
(`FST.local_slice(False)`). -/
structure Block (M : ℕ) (J : Type*) where
  sl : Finset (Fin M)
  other : Finset J

/-- Lines 84-92 of utilities/__init__.py: every rank sums its part over the other axes, puts the result at its wall-normal
indices of a zero array, and the arrays are summed on the root. -/
noncomputable def gather {M : ℕ} {J R : Type*} [Fintype R] (blocks : R → Block M J) (u : Fin M → J → ℝ) : Fin M → ℝ :=
  fun j => ∑ r, (if j ∈ (blocks r).sl then ∑ k ∈ (blocks r).other, u j k else 0)

/-- FFTW's DCT of type 1 (REDFT00) of an array of length `M = n + 2` (trusted library function). -/
noncomputable def dct1 (n : ℕ) (c : ℕ → ℝ) (k : ℕ) : ℝ :=
  c 0 + (-1) ^ k * c (n + 1) + 2 * ∑ j ∈ range n, c (j + 1) * Real.cos (Real.pi * (j + 1) * k / (n + 1))

/-- FFTW's DCT of type 3 (REDFT01) of an array of length `M` (trusted library function). -/
noncomputable def dct3 (M : ℕ) (d : ℕ → ℝ) (j : ℕ) : ℝ :=
  d 0 + 2 * ∑ k ∈ range (M - 1), d (k + 1) * Real.cos (Real.pi * (k + 1) * (j + 1 / 2) / M)

/-- Lines 96-105 of utilities/__init__.py (Chebyshev, Gauss-Lobatto points), without the factor of the other axes. -/
noncomputable def dxGL (n : ℕ) (c : ℕ → ℝ) : ℝ :=
  let M := n + 2
  let ak : ℕ → ℝ := fun k => dct1 n c k / ((M : ℝ) - 1)
  let w : ℕ → ℝ := fun k => if k % 2 = 1 then 0 else if k = 0 then 1 else 2 / (1 - (k : ℝ) ^ 2)
  ∑ k ∈ range M, ak k * w k

/-- Lines 107-114 of utilities/__init__.py (Chebyshev, Gauss points), without the factor of the other axes. -/
noncomputable def dxGC (M : ℕ) (c : ℕ → ℝ) : ℝ :=
  let d : ℕ → ℝ := fun i => if i % 2 = 0 then (2 / (M : ℝ)) / (if i = 0 then 1 else 1 - (i : ℝ) * i) else 0
  ∑ j ∈ range M, c j * dct3 M d j

/-- Lines 115-118 of utilities/__init__.py (other families), with the weights of the basis (trusted library). -/
noncomputable def dxOther (M : ℕ) (w c : ℕ → ℝ) : ℝ := ∑ j ∈ range M, c j * w j

/-- `dx` on the root rank (utilities/__init__.py:82-120): `rule` is one of the three above, `vol` the product of `L/N` over the other
axes. -/
noncomputable def dx {M : ℕ} {J R : Type*} [Fintype R] (rule : (ℕ → ℝ) → ℝ) (vol : ℝ) (blocks : R → Block M J) (u : Fin M → J → ℝ) : ℝ :=
  rule (fun j => if h : j < M then gather blocks u ⟨j, h⟩ else 0) * vol

/-! ## Stats -/

/-- The sums kept by one rank (demo/MKM.py:179-190): wall-normal indices are local. -/
structure Stats where
  num_samples : ℕ
  Umean : Fin 3 → ℕ → ℝ
  Pmean : ℕ → ℝ
  UU : Fin 6 → ℕ → ℝ

/-- demo/MKM.py:181-184. -/
def Stats.init : Stats := ⟨0, fun _ _ => 0, fun _ => 0, fun _ _ => 0⟩

/-- One sample on one rank: velocity and (if given) pressure by local wall-normal index and index in the other two
directions. -/
structure Sample (J : Type*) where
  U : Fin 3 → ℕ → J → ℝ
  P : Option (ℕ → J → ℝ)

/-- The factors of the stresses, demo/MKM.py:207-212. -/
def pair : Fin 6 → Fin 3 × Fin 3 := ![(0, 0), (1, 1), (2, 2), (0, 1), (0, 2), (1, 2)]

variable {J : Type*} [Fintype J]

/-- demo/MKM.py:203-212 (the call of `get_stats` is in `sampleAll`). -/
def Stats.add (st : Stats) (x : Sample J) : Stats where
  num_samples := st.num_samples + 1
  Umean i k := st.Umean i k + ∑ j, x.U i k j
  Pmean k := match x.P with
    | none => st.Pmean k
    | some P => st.Pmean k + ∑ j, P k j
  UU i k := st.UU i k + ∑ j, x.U (pair i).1 k j * x.U (pair i).2 k j

/-- The statistics file: means by global wall-normal index. -/
structure StatsFile where
  num_samples : ℕ
  U : Fin 3 → ℕ → ℝ
  P : ℕ → ℝ
  UU : Fin 6 → ℕ → ℝ

/-- `s = slice(rank*N, (rank+1)*N)`. -/
def inSlice (rank N k : ℕ) : Prop := rank * N ≤ k ∧ k < (rank + 1) * N

instance (rank N k : ℕ) : Decidable (inSlice rank N k) := by unfold inSlice; infer_instance

/-- demo/MKM.py:215-232 `get_stats`, the part written by one rank with `N` local planes; `nJ = shape[1]*shape[2]`. -/
noncomputable def Stats.write (st : Stats) (rank N nJ : ℕ) (f : StatsFile) : StatsFile :=
  let Nd : ℝ := st.num_samples * nJ
  { num_samples := st.num_samples
    U := fun i k => if inSlice rank N k then st.Umean i (k - rank * N) / Nd else f.U i k
    P := fun k => if inSlice rank N k then st.Pmean (k - rank * N) / Nd else f.P k
    UU := fun i k => if inSlice rank N k then st.UU i (k - rank * N) / Nd else f.UU i k }

/-- demo/MKM.py:244-256 `fromfile` on one rank. -/
noncomputable def Stats.fromfile (f : StatsFile) (rank N nJ : ℕ) : Stats :=
  let Nd : ℝ := f.num_samples * nJ
  { num_samples := f.num_samples
    Umean := fun i k => f.U i (rank * N + k) * Nd
    Pmean := fun k => f.P (rank * N + k) * Nd
    UU := fun i k => f.UU i (rank * N + k) * Nd }

/-- One rank's part of a global sample. -/
def Sample.part (x : Sample J) (rank N : ℕ) : Sample J :=
  ⟨fun i k => x.U i (rank * N + k), x.P.map fun P k => P (rank * N + k)⟩

/-- `Stats.__call__` on all ranks (demo/MKM.py:202-213): every rank adds its part of the sample and writes its slice. -/
noncomputable def sampleAll (ranks N : ℕ) (x : Sample J) (s : (ℕ → Stats) × StatsFile) : (ℕ → Stats) × StatsFile :=
  let st : ℕ → Stats := fun r => (s.1 r).add (x.part r N)
  (st, (List.range ranks).foldl (fun f r => (st r).write r N (Fintype.card J) f) s.2)

/-- A sequence of samples on `ranks` ranks with `N` planes each. -/
noncomputable def sampleList (ranks N : ℕ) (xs : List (Sample J)) (s : (ℕ → Stats) × StatsFile) : (ℕ → Stats) × StatsFile :=
  xs.foldl (fun s x => sampleAll ranks N x s) s

end SpectralDNS.Utilities

import Mathlib.Data.Real.Basic
import Mathlib.Data.List.Infix
import Mathlib.Data.Finset.Lattice.Fold
import Mathlib.Data.Fintype.Basic

/-!
# Profiling (utilities/create_profile.py, __init__.py:101-119)
-/

namespace SpectralDNS.Profile

/-- A key of `ps.stats`: file and line (numbered) and `name`, its third component.  Keys of a dictionary are distinct. -/
structure Key where
  place : ℕ
  name : String
deriving DecidableEq

/-- create_profile.py:24-59, the functions looked for. -/
def items : List String := ["ifftn", "ifft", "irfftn", "irfft2", "irfft", "rfftn", "rfft2", "rfft", "fftn", "fft", "dct", "ifst", "ifct", "fst", "fct",
  "Alltoall", "Alltoallw", "Sendrecv_replace", "rollaxis", "copy_to_padded", "copy_from_padded", "RK4", "ForwardEuler", "AB2", "adaptiveRK", "nonlinear",
  "add_linear", "cross1", "cross2", "compute_curl", "Cross", "project", "Scatter", "ComputeRHS", "solve_linear", "Conv"]

/-- Python's `s in t` for strings. -/
def within (s t : String) : Bool := t.toList.tails.any fun u => s.toList.isPrefixOf u

/-- create_profile.py:61, the condition.  `item is key[2]` compares identities; names of functions and the literals of the list are interned, so that this
is equality. -/
def hits (item : String) (k : Key) : Bool := item == k.name || within ("method '" ++ item ++ "'") k.name || within ("." ++ item) k.name

/-- create_profile.py:24-67 on one rank, apart from the communication: `stats` lists the keys in the order of the dictionary; an item takes the first key
that it hits, which is then deleted. -/
def scan : List String → List Key → List (String × Key)
  | [], _ => []
  | item :: rest, stats =>
    match stats.find? (hits item) with
    | none => scan rest stats
    | some k => (item, k) :: scan rest (stats.eraseP (hits item))

/-- The operations of MPI that are used. -/
inductive Op
  | MIN
  | MAX
deriving DecidableEq

/-- create_profile.py:62-65: the four calls of `reduce` for one key; `tt` own time (`val[2]`), `ct` cumulative time (`val[3]`). -/
def calls (tt ct : Key → ℝ) (k : Key) : List (Op × ℝ) := [(.MIN, tt k), (.MAX, tt k), (.MIN, ct k), (.MAX, ct k)]

/-- The value that `reduce` gives to rank 0. -/
noncomputable def reduce {p : ℕ} (op : Op) (v : Fin (p + 1) → ℝ) : ℝ :=
  match op with
  | .MIN => Finset.univ.inf' Finset.univ_nonempty v
  | .MAX => Finset.univ.sup' Finset.univ_nonempty v

open Classical in
/-- The calls of `reduce` on all ranks: the `j`-th call of one rank is completed by the `j`-th calls of the others (the operations are in the same
order on all ranks).  `none`: some call is never completed. -/
noncomputable def exchange {p : ℕ} (c : Fin (p + 1) → List (Op × ℝ)) : Option (List ℝ) :=
  if ∀ r, (c r).length = (c 0).length then
    some ((List.range (c 0).length).map fun j => reduce ((c 0).getD j (.MIN, 0)).1 fun r => ((c r).getD j (.MIN, 0)).2)
  else none

/-- create_profile.py:62-65: the numbers of rank 0 four by four. -/
def group : List String → List ℝ → List (String × ℝ × ℝ × ℝ × ℝ)
  | item :: rest, a :: b :: c :: d :: l => (item, a, b, c, d) :: group rest l
  | _, _ => []

/-- create_profile.py:11-77 `create_profile`: what rank 0 returns and prints, from the keys `stats r` and the times `tt r`, `ct r` of the ranks. -/
noncomputable def create_profile {p : ℕ} (stats : Fin (p + 1) → List Key) (tt ct : Fin (p + 1) → Key → ℝ) : Option (List (String × ℝ × ℝ × ℝ × ℝ)) :=
  (exchange fun r => (scan items (stats r)).flatMap fun x => calls (tt r) (ct r) x.2).map (group ((scan items (stats 0)).map Prod.fst))

/-! ## The profiler in `solve` -/

/-- The profiler of solvers/spectralinit.py:21, one object for all solvers and runs of a process: switched on, and what it has recorded. -/
structure Profiler (A : Type*) where
  on : Bool
  stats : List A

variable {A : Type*}

/-- Functions called while the profiler may be on. -/
def Profiler.call (s : Profiler A) (l : List A) : Profiler A := if s.on then { s with stats := s.stats ++ l } else s

/-- One turn of the loop of `solve` (__init__.py:94-113): `step` the calls before the test (the integrator, `update`, output, timer), `after` those of
`end_of_tstep`. -/
def turn (make_profile : Bool) (s : Profiler A) (t : List A × List A) : Profiler A :=
  let s := s.call t.1
  let s := if s.stats.isEmpty && make_profile then { s with on := true } else s
  s.call t.2

/-- __init__.py:94-119: the loop, `timer.final` (calls `final`) and the profile, which is made from everything recorded.  `none`: `pstats.Stats` raises an
exception because nothing was recorded.  Without `make_profile` there is no profile (`some none`). -/
def solveProfile (make_profile : Bool) (s : Profiler A) (turns : List (List A × List A)) (final : List A) : Profiler A × Option (Option (List A)) :=
  let s := (turns.foldl (turn make_profile) s).call final
  if make_profile then ({ s with on := false }, if s.stats.isEmpty then none else some (some s.stats)) else (s, some none)

end SpectralDNS.Profile

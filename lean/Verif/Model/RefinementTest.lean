import Mathlib.Analysis.SpecialFunctions.Log.Basic

/-!
# The table of demo/refinement_test.py

The script runs a solver once for each time step and prints, for each run, the error, the step and the observed order.  The runs (line 20, a program that is started in a
shell) and the reading of their output (lines 21-22) are left out: a run is the two numbers `(err, h1)` read off.  Numbers are real numbers, and are not rounded for
printing.
-/

namespace SpectralDNS.Refinement

open Real

/-- The lists `error` and `h` (lines 5-6) and the rows printed so far. -/
structure State where
  error : List ℝ
  h : List ℝ
  printed : List (ℝ × ℝ × ℝ)

/-- `l[-i]`, for `1 ≤ i`; 0 in place of an exception. -/
def fromEnd (l : List ℝ) (i : ℕ) : ℝ := if i ≤ l.length then l.getD (l.length - i) 0 else 0

/-- The body of the loop (lines 22-29) for run number `i`. -/
noncomputable def step (s : State) (run : (ℝ × ℝ) × ℕ) : State :=
  let error := s.error ++ [run.1.1]
  let h := s.h ++ [run.1.2]
  let printed := if run.2 = 0 then s.printed ++ [(fromEnd error 1, fromEnd h 1, 0)] else s.printed
  let printed := if 0 < run.2 then
      printed ++ [(fromEnd error 1, fromEnd h 1, log (fromEnd error 1 / fromEnd error 2) / log (fromEnd h 1 / fromEnd h 2))]
    else printed
  ⟨error, h, printed⟩

/-- The rows printed by the loop (lines 19-29). -/
noncomputable def table (runs : List (ℝ × ℝ)) : List (ℝ × ℝ × ℝ) := (runs.zipIdx.foldl step ⟨[], [], []⟩).printed

end SpectralDNS.Refinement

import Mathlib.Data.Real.Basic
import Mathlib.Logic.Function.Basic
import Mathlib.Data.List.Basic

/-!
# Model of spectralDNS/config.py and of `get_solver` (spectralDNS/__init__.py)

`Params` is a dictionary whose attributes are its items (`self.__dict__ = self`, config.py:69).  The parsers follow the documented
behaviour of `argparse`: actions of a parent parser are shared objects, `set_defaults` changes the default of the actions it finds and
fills `_defaults`, a sub-parser parses into a fresh namespace whose contents then overwrite those of the main namespace.
Simplifications: keys which are names of `dict` methods are left out; conversion of string defaults by `type=` and the action of
`--planner_effort` are not modelled; integers and reals are exact.
-/

namespace SpectralDNS.Config

/-- Values stored in `Params`. -/
inductive Val where
  /-- `array(…, dtype=int)` -/
  | ints (l : List ℤ)
  /-- `array(…, dtype=float)` -/
  | reals (l : List ℝ)
  | num (x : ℝ)
  | str (s : String)

/-- What is assigned: a sequence, given by `str(f)` of its entries, or any other value. -/
inductive Raw where
  | seq (l : List String)
  | val (v : Val)

/-- Exceptions. -/
inductive Exc where
  | keyError
  | valueError
  | assertionError
  | typeError

/-- The dictionary. -/
abbrev Store := String → Option Val

/-- The string conversions and the rounding used: `int(str(f))` (config.py:137), `eval(str(f), …, {'pi': pi})` (config.py:142) and
`numpy.float32` (config.py:125).  `none` means that an exception is raised. -/
structure Conv where
  int : String → Option ℤ
  eval : String → Option ℝ
  float32 : ℝ → ℝ

variable (C : Conv)

/-- Convert every entry; fails if one fails. -/
def mapOpt {α β : Type*} (f : α → Option β) : List α → Option (List β)
  | [] => some []
  | a :: l => match f a, mapOpt f l with
    | some b, some r => some (b :: r)
    | _, _ => none

/-- What `__setitem__` stores for `val` under `key`, `none` if it raises (config.py:135-148). -/
def convert (key : String) (r : Raw) : Option Val :=
  if key = "M" ∨ key = "N" then
    match r with
    | .seq l => (mapOpt C.int l).map .ints
    | .val _ => none
  else if key = "L" then
    match r with
    | .seq l => (mapOpt C.eval l).map .reals
    | .val _ => none
  else
    match r with
    | .seq _ => none
    | .val v => some v

/-- `Params.__setitem__`, config.py:135-148.  Sequences under other keys are left out (`convert` gives `none`). -/
def setItem (s : Store) (key : String) (r : Raw) : Except Exc Store :=
  match convert C key r with
  | some v => .ok (Function.update s key (some v))
  | none => .error .valueError

/-- `Params.__setattr__`, config.py:129-133: `N`, `M` and `L` go through `__setitem__`, the rest is stored as it is (in the same
dictionary). -/
def setAttr (s : Store) (key : String) (r : Raw) : Except Exc Store :=
  if key = "N" ∨ key = "M" ∨ key = "L" then setItem C s key r
  else match r with
    | .val v => .ok (Function.update s key (some v))
    | .seq _ => .error .valueError

/-- `dict.__getitem__`. -/
def getItem (s : Store) (key : String) : Except Exc Val :=
  match s key with
  | some v => .ok v
  | none => .error .keyError

/-- `Params.N`: config.py:115-118 when the item is missing; `2**mval` raises for negative integers. -/
def getN (s : Store) : Except Exc Val :=
  match s "N" with
  | some v => .ok v
  | none => match s "M" with
    | some (.ints m) => if m.all (0 ≤ ·) then .ok (.ints (m.map fun x => 2 ^ x.toNat)) else .error .valueError
    | some _ => .error .typeError
    | none => .error .assertionError

/-- `params.L / params.N` for arrays (config.py:113); arrays of different lengths do not broadcast (lengths 1 left out). -/
noncomputable def divArr (l : List ℝ) (n : List ℤ) : Except Exc Val :=
  if l.length = n.length then .ok (.reals (List.zipWith (fun x k => x / (k : ℝ)) l n)) else .error .valueError

/-- Reading an attribute: `Params.__getattribute__` (config.py:123-127), then `__getattr__` (config.py:110-121) if it is missing. -/
noncomputable def getAttr (s : Store) (key : String) : Except Exc Val :=
  if key = "nu" ∨ key = "dt" ∨ key = "Ri" ∨ key = "Pr" ∨ key = "eta" then
    match s "precision" with
    | none => .error .keyError
    | some p => match s key with
      | some (.num x) => match p with
        | .str q => .ok (.num (if q = "single" then C.float32 x else x))
        | _ => .ok (.num x)
      | some _ => .error .typeError
      | none => .error .keyError
  else match s key with
    | some v => .ok v
    | none =>
      if key = "dx" then
        match s "L", getN s with
        | some (.reals l), .ok (.ints n) => divArr l n
        | none, _ => .error .keyError
        | _, .error e => .error e
        | _, _ => .error .typeError
      else if key = "N" then getN s
      else .error .keyError

/-- One operation on `params`. -/
inductive Op where
  | setAttr (key : String) (r : Raw)
  | setItem (key : String) (r : Raw)
  | getAttr (key : String)
  | getItem (key : String)

/-- Effect of an operation on the dictionary; a raising assignment leaves it as it was. -/
def Op.run (op : Op) (s : Store) : Store :=
  match op with
  | .setAttr k r => match Config.setAttr C s k r with
    | .ok s' => s'
    | .error _ => s
  | .setItem k r => match Config.setItem C s k r with
    | .ok s' => s'
    | .error _ => s
  | .getAttr _ => s
  | .getItem _ => s

/-- A history of operations on the empty `params = Params()` (config.py:161). -/
def history (ops : List Op) : Store := ops.foldl (fun s op => op.run C s) fun _ => none

/-! ## Parsers -/

/-- The parsers of config.py:164-305.  `common` are the actions of `parser` (shared with the three mesh parsers through `parents`),
`own mesh` the actions added to one mesh parser, `sub mesh solver` those of a sub-parser; the value is the current default.
`defaults mesh` is the dictionary `_defaults` of the mesh parser. -/
structure Parsers (V : Type*) where
  common : String → Option V
  own : String → String → Option V
  sub : String → String → String → Option V
  defaults : String → String → Option V

variable {V : Type*}

/-- `set_defaults(o=v)` on a mesh parser: `_defaults`, and the default of every action of that parser with this destination. -/
def Parsers.setDefault (P : Parsers V) (mesh : String) (o : String) (v : V) : Parsers V :=
  { P with
    common := if (P.common o).isSome then Function.update P.common o (some v) else P.common
    own := if (P.own mesh o).isSome then Function.update P.own mesh (Function.update (P.own mesh) o (some v)) else P.own
    defaults := Function.update P.defaults mesh (Function.update (P.defaults mesh) o (some v)) }

/-- `config.update(new, mesh)`, config.py:307-314. -/
def Parsers.update (P : Parsers V) (mesh : String) (new : List (String × V)) : Parsers V :=
  new.foldl (fun P ov => P.setDefault mesh ov.1 ov.2) P

/-- A sequence of calls of `config.update`. -/
def Parsers.updates (P : Parsers V) (us : List (String × List (String × V))) : Parsers V :=
  us.foldl (fun P u => P.update u.1 u.2) P

/-- A command line: options before the solver name, the solver name, options after it. -/
structure CmdLine (V : Type*) where
  main : List (String × V)
  solver : String
  sub : List (String × V)

/-- Options are stored in the order they occur. -/
def assign (ns : String → Option V) (l : List (String × V)) : String → Option V :=
  l.foldl (fun ns ov => Function.update ns ov.1 (some ov.2)) ns

/-- `parse_args` of a mesh parser (spectralDNS/__init__.py:45); `none` is the exit on an option which the parser at that position does
not know. -/
def Parsers.parse (P : Parsers V) (mesh : String) (c : CmdLine V) : Option (String → Option V) :=
  if (∀ ov ∈ c.main, (P.common ov.1).isSome ∨ (P.own mesh ov.1).isSome) ∧ (∀ ov ∈ c.sub, (P.sub mesh c.solver ov.1).isSome) then
    let ns : String → Option V := fun o =>
      match P.own mesh o with
      | some v => some v
      | none => match P.common o with
        | some v => some v
        | none => P.defaults mesh o
    let ns := assign ns c.main
    let sub := assign (P.sub mesh c.solver) c.sub
    some fun o => match sub o with
      | some v => some v
      | none => ns o
  else none

/-! ## The table of names -/

/-- Solvers offered by the sub-parsers: config.py:230-239 (triplyperiodic), 255-261 (doublyperiodic), 282-305 (channel). -/
def offeredSolvers : String → List String
  | "triplyperiodic" => ["NS", "VV", "MHD", "Bq"]
  | "doublyperiodic" => ["NS2D", "Bq2D"]
  | "channel" => ["KMM", "KMMr", "KMMRK3", "KMM_RB", "KMMRK3_RB", "Coupled", "CoupledRK3"]
  | _ => []

/-- Modules in spectralDNS/solvers. -/
def solverModules : List String :=
  ["Bq2D", "Coupled", "CoupledRK3", "KMM", "KMMRK3", "KMMRK3_RB", "KMM_RB", "KMMr", "MHD", "NS", "NS2D", "VV", "spectralinit"]

/-- The mesh a solver's `get_context` builds: three Fourier directions and three components (NS.py:18-23 and 106-108, VV.py imports it,
MHD.py:18-23); two (NS2D.py:26-30, Bq2D.py:17-22); one Chebyshev and two Fourier directions with the quadratures `params.Dquad`, `Bquad`
(KMM.py:26-31 and the solvers importing it, KMMr.py:24-29, Coupled.py:23-27, CoupledRK3.py:22-26). -/
def meshOf : String → Option String
  | "NS" | "VV" | "MHD" => some "triplyperiodic"
  | "NS2D" | "Bq2D" => some "doublyperiodic"
  | "KMM" | "KMMr" | "KMMRK3" | "KMM_RB" | "KMMRK3_RB" | "Coupled" | "CoupledRK3" => some "channel"
  | _ => none

/-- Values of `--convection` accepted for a mesh: config.py:214-216, 248-250 (`choices=('Vortex')` is a string, so argparse's
`value in choices` accepts its substrings) and 266-268. -/
def acceptsConvection (mesh conv : String) : Bool :=
  match mesh with
  | "triplyperiodic" => ["Standard", "Divergence", "Skewed", "Vortex"].contains conv
  | "doublyperiodic" => ("Vortex".toList.tails).any (conv.toList.isPrefixOf ·)
  | "channel" => ["Standard", "Divergence", "Skew", "Vortex"].contains conv
  | _ => false

/-- Whether a run of the solver with this convection gets through `getConvection` and its first convection evaluation:
NS.py:164-201; VV.py:85-103, NS2D.py:32-51, Bq2D.py:101-128 (Vortex only); MHD.py:112-130 (Divergence only); KMM.py:355-396 (also
KMMRK3, KMM_RB, KMMRK3_RB, which import it); KMMr.py:357-397, whose `standardConvection` calls `LUsolve.Mult_CTD_3D_n` (KMMr.py:297),
a function which does not exist; Coupled.py:240-280, CoupledRK3.py:246-286. -/
def implements (solver conv : String) : Bool :=
  match solver with
  | "NS" => ["Standard", "Divergence", "Skewed", "Vortex"].contains conv
  | "VV" | "NS2D" | "Bq2D" => conv == "Vortex"
  | "MHD" => conv == "Divergence"
  | "KMM" | "KMMRK3" | "KMM_RB" | "KMMRK3_RB" | "Coupled" | "CoupledRK3" => ["Standard", "Divergence", "Skew", "Vortex"].contains conv
  | "KMMr" => ["Divergence", "Vortex"].contains conv
  | _ => false

end SpectralDNS.Config

import Verif.Model.Config
import Mathlib.Data.List.Induction
import Mathlib.Tactic.NormNum

/-! # C49, C50: precedence of options and the table of solvers -/

namespace SpectralDNS.Config

variable {V : Type*}

/-! ## Spec: the last value given to an option -/

/-- The last value of `o` in a list of options. -/
def lastValue (l : List (String × V)) (o : String) : Option V := ((l.filter fun ov => ov.1 = o).getLast?).map Prod.snd

/-- The last value of `o` given to `config.update(…, mesh)`, over all calls. -/
def lastUpdate (us : List (String × List (String × V))) (mesh o : String) : Option V :=
  lastValue ((us.filter fun u => u.1 = mesh).flatMap Prod.snd) o

/-- The same over the calls for any mesh. -/
def lastUpdateAny (us : List (String × List (String × V))) (o : String) : Option V := lastValue (us.flatMap Prod.snd) o

theorem lastValue_append (l m : List (String × V)) (o : String) : lastValue (l ++ m) o = (lastValue m o).or (lastValue l o) := by
  unfold lastValue
  rw [List.filter_append, List.getLast?_append]
  generalize (m.filter fun ov => ov.1 = o).getLast? = a
  generalize (l.filter fun ov => ov.1 = o).getLast? = b
  cases a <;> simp

theorem lastValue_single (p : String × V) (o : String) : lastValue [p] o = if p.1 = o then some p.2 else none := by
  unfold lastValue
  by_cases h : p.1 = o <;> simp [h]

theorem assign_eq (ns : String → Option V) (l : List (String × V)) (o : String) : assign ns l o = (lastValue l o).or (ns o) := by
  induction l using List.reverseRecOn with
  | nil => simp [assign, lastValue]
  | append_singleton l p ih =>
    have h : assign ns (l ++ [p]) = Function.update (assign ns l) p.1 (some p.2) := by simp [assign]
    rw [h, lastValue_append, lastValue_single]
    by_cases hp : p.1 = o
    · subst hp; simp
    · rw [Function.update_of_ne (Ne.symm hp), ih]; simp [hp]

/-! ## What updates do -/

theorem setDefault_common (P : Parsers V) (m o' : String) (v : V) (o : String) :
    (P.setDefault m o' v).common o = if (P.common o).isSome ∧ o' = o then some v else P.common o := by
  unfold Parsers.setDefault
  by_cases h : (P.common o').isSome
  · by_cases ho : o' = o
    · subst ho; simp [h]
    · simp [h, ho, Function.update_of_ne (Ne.symm ho)]
  · by_cases ho : o' = o
    · subst ho; simp [h]
    · simp [h, ho]

theorem setDefault_own (P : Parsers V) (m o' : String) (v : V) (m' o : String) :
    (P.setDefault m o' v).own m' o = if (P.own m' o).isSome ∧ m = m' ∧ o' = o then some v else P.own m' o := by
  unfold Parsers.setDefault
  by_cases hm : m = m'
  · subst hm
    by_cases h : (P.own m o').isSome
    · by_cases ho : o' = o
      · subst ho; simp [h]
      · simp [h, ho, Function.update_of_ne (Ne.symm ho)]
    · by_cases ho : o' = o
      · subst ho; simp [h]
      · simp [h, ho]
  · by_cases h : (P.own m o').isSome <;> simp [h, hm, Function.update_of_ne (Ne.symm hm)]

theorem setDefault_defaults (P : Parsers V) (m o' : String) (v : V) (m' o : String) :
    (P.setDefault m o' v).defaults m' o = if m = m' ∧ o' = o then some v else P.defaults m' o := by
  unfold Parsers.setDefault
  by_cases hm : m = m'
  · subst hm
    by_cases ho : o' = o
    · subst ho; simp
    · simp [ho, Function.update_of_ne (Ne.symm ho)]
  · simp [hm, Function.update_of_ne (Ne.symm hm)]

theorem update_common (P : Parsers V) (m : String) (new : List (String × V)) (o : String) :
    (P.update m new).common o = if (P.common o).isSome then (lastValue new o).or (P.common o) else none := by
  induction new using List.reverseRecOn with
  | nil => by_cases h : (P.common o).isSome <;> simp_all [Parsers.update, lastValue]
  | append_singleton l p ih =>
    have h : P.update m (l ++ [p]) = (P.update m l).setDefault m p.1 p.2 := by simp [Parsers.update]
    rw [h, setDefault_common, ih, lastValue_append, lastValue_single]
    by_cases hs : (P.common o).isSome <;> by_cases hp : p.1 = o <;> simp [hs, hp]

theorem update_own (P : Parsers V) (m : String) (new : List (String × V)) (m' o : String) :
    (P.update m new).own m' o = if (P.own m' o).isSome then (if m = m' then (lastValue new o).or (P.own m' o) else P.own m' o) else none := by
  induction new using List.reverseRecOn with
  | nil => by_cases h : (P.own m' o).isSome <;> simp_all [Parsers.update, lastValue]
  | append_singleton l p ih =>
    have h : P.update m (l ++ [p]) = (P.update m l).setDefault m p.1 p.2 := by simp [Parsers.update]
    rw [h, setDefault_own, ih, lastValue_append, lastValue_single]
    by_cases hs : (P.own m' o).isSome <;> by_cases hm : m = m' <;> by_cases hp : p.1 = o <;> simp [hs, hm, hp]

theorem update_defaults (P : Parsers V) (m : String) (new : List (String × V)) (m' o : String) :
    (P.update m new).defaults m' o = if m = m' then (lastValue new o).or (P.defaults m' o) else P.defaults m' o := by
  induction new using List.reverseRecOn with
  | nil => simp [Parsers.update, lastValue]
  | append_singleton l p ih =>
    have h : P.update m (l ++ [p]) = (P.update m l).setDefault m p.1 p.2 := by simp [Parsers.update]
    rw [h, setDefault_defaults, ih, lastValue_append, lastValue_single]
    by_cases hm : m = m' <;> by_cases hp : p.1 = o <;> simp [hm, hp]

theorem update_sub (P : Parsers V) (m : String) (new : List (String × V)) : (P.update m new).sub = P.sub := by
  induction new using List.reverseRecOn with
  | nil => rfl
  | append_singleton l p ih =>
    have h : P.update m (l ++ [p]) = (P.update m l).setDefault m p.1 p.2 := by simp [Parsers.update]
    rw [h]; exact ih

theorem lastUpdate_append (us : List (String × List (String × V))) (u : String × List (String × V)) (m o : String) :
    lastUpdate (us ++ [u]) m o = if u.1 = m then (lastValue u.2 o).or (lastUpdate us m o) else lastUpdate us m o := by
  unfold lastUpdate
  by_cases h : u.1 = m
  · simp [h, lastValue_append]
  · simp [h]

theorem lastUpdateAny_append (us : List (String × List (String × V))) (u : String × List (String × V)) (o : String) :
    lastUpdateAny (us ++ [u]) o = (lastValue u.2 o).or (lastUpdateAny us o) := by
  simp [lastUpdateAny, lastValue_append]

theorem updates_append (P : Parsers V) (us : List (String × List (String × V))) (u : String × List (String × V)) :
    P.updates (us ++ [u]) = (P.updates us).update u.1 u.2 := by simp [Parsers.updates]

theorem or_isSome {a b : Option V} (h : b.isSome) : (a.or b).isSome := by cases a <;> simp_all

theorem updates_common (P : Parsers V) (us : List (String × List (String × V))) (o : String) :
    (P.updates us).common o = if (P.common o).isSome then (lastUpdateAny us o).or (P.common o) else none := by
  induction us using List.reverseRecOn with
  | nil => by_cases h : (P.common o).isSome <;> simp_all [Parsers.updates, lastUpdateAny, lastValue]
  | append_singleton us u ih =>
    rw [updates_append, update_common, ih, lastUpdateAny_append]
    by_cases hs : (P.common o).isSome
    · simp only [hs, if_true, if_pos (or_isSome hs), Option.or_assoc]
    · simp [hs]

theorem updates_own (P : Parsers V) (us : List (String × List (String × V))) (m o : String) :
    (P.updates us).own m o = if (P.own m o).isSome then (lastUpdate us m o).or (P.own m o) else none := by
  induction us using List.reverseRecOn with
  | nil => by_cases h : (P.own m o).isSome <;> simp_all [Parsers.updates, lastUpdate, lastValue]
  | append_singleton us u ih =>
    rw [updates_append, update_own, ih, lastUpdate_append]
    by_cases hs : (P.own m o).isSome
    · simp only [hs, if_true, if_pos (or_isSome hs)]
      by_cases hm : u.1 = m
      · simp only [hm, if_true, Option.or_assoc]
      · simp [hm]
    · simp [hs]

theorem updates_defaults (P : Parsers V) (us : List (String × List (String × V))) (m o : String) :
    (P.updates us).defaults m o = (lastUpdate us m o).or (P.defaults m o) := by
  induction us using List.reverseRecOn with
  | nil => simp [Parsers.updates, lastUpdate, lastValue]
  | append_singleton us u ih =>
    rw [updates_append, update_defaults, ih, lastUpdate_append]
    by_cases hm : u.1 = m
    · simp only [hm, if_true, Option.or_assoc]
    · simp [hm]

theorem updates_sub (P : Parsers V) (us : List (String × List (String × V))) : (P.updates us).sub = P.sub := by
  induction us using List.reverseRecOn with
  | nil => rfl
  | append_singleton us u ih => rw [updates_append, update_sub, ih]

/-- The value an accepted command line gives to an option, before any assumption on who owns it. -/
theorem parse_value (P : Parsers V) (us : List (String × List (String × V))) (mesh : String) (c : CmdLine V)
    (ns : String → Option V) (h : (P.updates us).parse mesh c = some ns) (o : String) :
    ns o = ((lastValue c.sub o).or (P.sub mesh c.solver o)).or ((lastValue c.main o).or
      (((P.updates us).own mesh o).or (((P.updates us).common o).or ((P.updates us).defaults mesh o)))) := by
  unfold Parsers.parse at h
  split_ifs at h with hc
  simp only [Option.some.injEq] at h
  subst h
  dsimp only
  rw [assign_eq, assign_eq, updates_sub]
  rcases (lastValue c.sub o).or (P.sub mesh c.solver o) with _ | v
  · rcases lastValue c.main o with _ | w
    · rcases (P.updates us).own mesh o with _ | x
      · rcases (P.updates us).common o <;> simp
      · simp
    · simp
  · simp

/-! ## C49 -/

/-- No occurrence of the option among options which the sub-parser does not own. -/
theorem no_sub_value (P : Parsers V) (us : List (String × List (String × V))) (mesh : String) (c : CmdLine V)
    (ns : String → Option V) (h : (P.updates us).parse mesh c = some ns) (o : String) (ho : P.sub mesh c.solver o = none) :
    lastValue c.sub o = none := by
  unfold Parsers.parse at h
  split_ifs at h with hc
  unfold lastValue
  rw [List.filter_eq_nil_iff.2]
  · rfl
  · intro ov hov
    have h2 := hc.2 ov hov
    rw [updates_sub] at h2
    simp only [decide_eq_true_eq]
    rintro rfl
    simp [ho] at h2

/-- **C49** Options of a mesh parser (for instance `--M`, `--convection`, the periodic `--integrator`), whatever the history of
`config.update` calls: the command line, else the last update for that mesh, else the built-in default. -/
theorem C49_mesh_option (P : Parsers V) (us : List (String × List (String × V))) (mesh : String) (c : CmdLine V)
    (ns : String → Option V) (h : (P.updates us).parse mesh c = some ns) (o : String) (d : V)
    (hown : P.own mesh o = some d) (hsub : P.sub mesh c.solver o = none) :
    ns o = (lastValue c.main o).or ((lastUpdate us mesh o).or (some d)) := by
  rw [parse_value P us mesh c ns h, no_sub_value P us mesh c ns h o hsub, hsub, updates_own, hown]
  rcases lastValue c.main o <;> rcases lastUpdate us mesh o <;> simp

/-- **C49** Options no parser declares (the extra entries of a demo's `config.update`). -/
theorem C49_undeclared (P : Parsers V) (us : List (String × List (String × V))) (mesh : String) (c : CmdLine V)
    (ns : String → Option V) (h : (P.updates us).parse mesh c = some ns) (o : String)
    (hown : P.own mesh o = none) (hcom : P.common o = none) (hsub : P.sub mesh c.solver o = none) :
    ns o = (lastUpdate us mesh o).or (P.defaults mesh o) := by
  have hm : lastValue c.main o = none := by
    unfold Parsers.parse at h
    split_ifs at h with hc
    unfold lastValue
    rw [List.filter_eq_nil_iff.2]
    · rfl
    · intro ov hov
      have h2 := hc.1 ov hov
      simp only [decide_eq_true_eq]
      rintro rfl
      rw [updates_own, updates_common] at h2
      simp [hown, hcom] at h2
  rw [parse_value P us mesh c ns h, no_sub_value P us mesh c ns h o hsub, hsub, hm, updates_own, updates_common, updates_defaults, hown,
    hcom]
  simp

/-- What happens with the options shared by all meshes (`--dt`, `--nu`, `--T`, …): the parent's actions are shared, so the last update
for *any* mesh counts. -/
theorem C49_common_exact (P : Parsers V) (us : List (String × List (String × V))) (mesh : String) (c : CmdLine V)
    (ns : String → Option V) (h : (P.updates us).parse mesh c = some ns) (o : String) (d : V)
    (hcom : P.common o = some d) (hown : P.own mesh o = none) (hsub : P.sub mesh c.solver o = none) :
    ns o = (lastValue c.main o).or ((lastUpdateAny us o).or (some d)) := by
  rw [parse_value P us mesh c ns h, no_sub_value P us mesh c ns h o hsub, hsub, updates_own, updates_common, hown, hcom]
  rcases lastValue c.main o <;> rcases lastUpdateAny us o <;> simp

/-- **C49, partial** Shared options follow the stated order if no other mesh was updated.  Missing: processes which configure several
meshes, where it is false (`C49_leak_false`). -/
theorem C49_common_option_partial (P : Parsers V) (us : List (String × List (String × V))) (mesh : String) (c : CmdLine V)
    (ns : String → Option V) (h : (P.updates us).parse mesh c = some ns) (o : String) (d : V)
    (hcom : P.common o = some d) (hown : P.own mesh o = none) (hsub : P.sub mesh c.solver o = none)
    (hus : ∀ u ∈ us, u.1 = mesh) :
    ns o = (lastValue c.main o).or ((lastUpdate us mesh o).or (some d)) := by
  rw [C49_common_exact P us mesh c ns h o d hcom hown hsub]
  have : us.filter (fun u => u.1 = mesh) = us := List.filter_eq_self.2 fun u hu => by simp [hus u hu]
  rw [lastUpdate, this, lastUpdateAny]

/-- **C49 fails** for the options of a sub-parser (`--eta` of MHD, `--Ri` and `--Pr` of Bq2D, `--integrator` of the channel solvers):
`config.update` never has an effect. -/
theorem C49_sub_option_false (P : Parsers V) (us : List (String × List (String × V))) (mesh : String) (c : CmdLine V)
    (ns : String → Option V) (h : (P.updates us).parse mesh c = some ns) (o : String) (d : V)
    (hsub : P.sub mesh c.solver o = some d) : ns o = (lastValue c.sub o).or (some d) := by
  rw [parse_value P us mesh c ns h, hsub]
  rcases lastValue c.sub o <;> simp

/-- Some of the real parsers, with the values as text: `--dt` and `--nu` shared (config.py:174-183), `--integrator` of the two- and
three-dimensional parsers (224-226, 243-245), `--Ri` and `--Pr` of Bq2D (260-261), `--eta` of MHD (236). -/
def realParsers : Parsers String where
  common := fun o => if o = "dt" then some "0.01" else if o = "nu" then some "0.000625" else none
  own := fun m o => if (m = "triplyperiodic" ∨ m = "doublyperiodic") ∧ o = "integrator" then some "RK4" else none
  sub := fun m s o =>
    if m = "doublyperiodic" ∧ s = "Bq2D" then (if o = "Ri" then some "0.1" else if o = "Pr" then some "1.0" else none)
    else if m = "triplyperiodic" ∧ s = "MHD" ∧ o = "eta" then some "0.01" else none
  defaults := fun _ _ => none

/-- **C49 fails** on demo/KelvinHelmoltzBoussinesq.py:67-84, run as `python KelvinHelmoltzBoussinesq.py Bq2D`: the demo asks for
`Ri = 0.167` and `Pr = 12.0`, the run uses 0.1 and 1.0 (while `nu` and the integrator are the ones asked for). -/
theorem C49_demo_false :
    ∃ ns, (realParsers.updates [("doublyperiodic", [("nu", "1.0e-03"), ("Ri", "0.167"), ("Pr", "12.0"), ("integrator", "BS5_adaptive")])]).parse
        "doublyperiodic" ⟨[], "Bq2D", []⟩ = some ns ∧
      ns "Ri" = some "0.1" ∧ ns "Pr" = some "1.0" ∧ ns "nu" = some "1.0e-03" ∧ ns "integrator" = some "BS5_adaptive" := by
  refine ⟨_, if_pos ⟨by simp, by simp⟩, ?_, ?_, ?_, ?_⟩ <;> decide +kernel

/-- **C49 fails** across meshes: an update of `dt` for the triply periodic parser changes the built-in default of the channel parser. -/
theorem C49_leak_false :
    ∃ ns, (realParsers.updates [("triplyperiodic", [("dt", "0.5")])]).parse "channel" ⟨[], "KMM", []⟩ = some ns ∧
      ns "dt" = some "0.5" ∧ lastUpdate [("triplyperiodic", [("dt", "0.5")])] "channel" "dt" = none := by
  refine ⟨_, if_pos ⟨by simp, by simp⟩, ?_, ?_⟩ <;> decide +kernel

/-- The hypotheses are met by a run with command line, update and default all present. -/
example : ∃ ns, (realParsers.updates [("doublyperiodic", [("integrator", "AB2")])]).parse "doublyperiodic"
    ⟨[("integrator", "BS5_fixed")], "NS2D", []⟩ = some ns ∧ ns "integrator" = some "BS5_fixed" := by
  refine ⟨_, if_pos ⟨fun ov hov => ?_, by simp⟩, by decide +kernel⟩
  simp only [List.mem_singleton] at hov
  subst hov
  decide +kernel

/-! ## C50 -/

/-- The mesh parsers of config.py. -/
def meshes : List String := ["triplyperiodic", "doublyperiodic", "channel"]

/-- **C50, partial** Every offered solver but `Bq` exists and is written for the mesh of the parser offering it, and for each there is an accepted convection it implements; every accepted
convection works for NS and for KMM, KMMRK3, KMM_RB, KMMRK3_RB, Coupled, CoupledRK3.  Missing: `Bq`, and the entries of
`C50_convection_false`. -/
theorem C50_table_partial :
    (∀ m ∈ meshes, ∀ s ∈ offeredSolvers m, s ≠ "Bq" → s ∈ solverModules ∧ meshOf s = some m ∧
      ∃ c ∈ ["Standard", "Divergence", "Skewed", "Skew", "Vortex"], acceptsConvection m c = true ∧ implements s c = true) ∧
    (∀ s ∈ ["NS"], ∀ c, acceptsConvection "triplyperiodic" c = true → implements s c = true) ∧
    (∀ s ∈ ["KMM", "KMMRK3", "KMM_RB", "KMMRK3_RB", "Coupled", "CoupledRK3"], ∀ c, acceptsConvection "channel" c = true →
      implements s c = true) := by
  refine ⟨by decide +kernel, ?_, ?_⟩
  · intro s hs c hc
    simp only [List.mem_singleton] at hs
    subst hs
    exact hc
  · intro s hs c hc
    simp only [List.mem_cons, List.not_mem_nil, or_false] at hs
    rcases hs with rfl | rfl | rfl | rfl | rfl | rfl <;> exact hc

/-- **C50 fails**: the triply periodic parser offers `Bq`, which has no module. -/
theorem C50_Bq_false : "Bq" ∈ offeredSolvers "triplyperiodic" ∧ "Bq" ∉ solverModules := by decide +kernel

/-- **C50 fails** for convection forms: the default form `Vortex` is accepted and not implemented by MHD; VV accepts and does not
implement the other three; KMMr accepts `Standard` and `Skew`, which call a function that does not exist; the two-dimensional solvers
accept any substring of `Vortex` (here the empty one). -/
theorem C50_convection_false :
    (acceptsConvection "triplyperiodic" "Vortex" = true ∧ implements "MHD" "Vortex" = false) ∧
    (∀ c ∈ ["Standard", "Divergence", "Skewed"], acceptsConvection "triplyperiodic" c = true ∧ implements "VV" c = false) ∧
    (∀ c ∈ ["Standard", "Skew"], acceptsConvection "channel" c = true ∧ implements "KMMr" c = false) ∧
    (∀ c ∈ ["", "V", "ort", "ex"], acceptsConvection "doublyperiodic" c = true ∧ implements "NS2D" c = false) := by
  decide +kernel

end SpectralDNS.Config

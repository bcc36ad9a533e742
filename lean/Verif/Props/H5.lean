import Mathlib.Data.List.GetD
import Verif.Props.Solve

/-!
# C40-C43: result files, checkpoints, kill file
-/

namespace SpectralDNS.Solve

variable {S C D : Type*}

/-- The file output object at the start of a run. -/
def fresh (d : Disk D) : H5 D := ⟨false, false, d⟩

/-! ## C40 -/

theorem apply_w (ops : List (FileOp D)) (hops : ∀ o ∈ ops, (∀ n x, o ≠ .writeResult n x) ∧ o ≠ .truncW) (d : Disk D) :
    (ops.foldl FileOp.apply d).w = d.w := by
  induction ops generalizing d with
  | nil => rfl
  | cons o l ih =>
    rw [List.foldl_cons, ih (fun x hx => hops x (List.mem_cons_of_mem _ hx))]
    have := hops o (List.mem_cons_self ..)
    cases o with
    | writeResult n x => exact absurd rfl (this.1 n x)
    | truncW => exact absurd rfl this.2
    | _ => rfl

/-- The result file after one output. -/
theorem h5update_w (sv : Solver S C D) (p : Params) (s : S) (h : H5 D) :
    (h5update sv p s h).2.1.disk.w = (if h.wfile = false ∧ p.truncate = true then [] else h.disk.w) ++
      (if p.tstep % p.write_result = 0 then [(p.tstep, sv.results (sv.update_components s))] else []) := by
  have h3 : ∀ d : Disk D, ((checkpointOps sv p (resultState sv p s)).foldl FileOp.apply d).w = d.w := by
    intro d
    apply apply_w
    intro o ho
    unfold checkpointOps at ho
    split_ifs at ho
    · rw [List.mem_flatMap] at ho
      obtain ⟨lv, -, ho⟩ := ho
      simp only [List.mem_cons, List.not_mem_nil, or_false] at ho
      rcases ho with rfl | rfl | rfl <;> simp
    · simp at ho
  simp only [h5update, updateOps, List.foldl_append, h3]
  unfold openOps resultOps
  rcases h with ⟨_ | _, _ | _, d⟩ <;> rcases hp : p.truncate <;> split_ifs <;> simp_all [FileOp.apply]

/-- What the records of a run are written from: the parameters and contexts at the calls of `hdf5file.update`, one per step, are those
produced by the integrator in that step followed by the update callback. -/
theorem C40_one_output_per_step (sv : Solver S C D) (p : Params) (s : S) (h5 : H5 D) (st : St S C D)
    (h : Seen sv (start sv p s h5) st) :
    st.outs.map (fun o => o.1.tstep) = List.range' (p.tstep + 1) st.took.length ∧
    ∀ o ∈ st.outs, ∃ st1 r, Reach sv (start sv p s h5) st1 ∧ sv.integrate st1.p st1.s st1.c = some r ∧
      o.1.tstep = st1.p.tstep + 1 ∧ o.1.t = st1.p.t + r.2.2.2 ∧ o.2 = sv.update o.1 r.1 := by
  obtain ⟨st1, hr, hst⟩ := h
  have key : ∀ x, Reach sv (start sv p s h5) x → x.p.tstep = p.tstep + x.took.length ∧
      x.outs.map (fun o => o.1.tstep) = List.range' (p.tstep + 1) x.took.length ∧
      ∀ o ∈ x.outs, ∃ st1 r, Reach sv (start sv p s h5) st1 ∧ sv.integrate st1.p st1.s st1.c = some r ∧
        o.1.tstep = st1.p.tstep + 1 ∧ o.1.t = st1.p.t + r.2.2.2 ∧ o.2 = sv.update o.1 r.1 := by
    intro x hx
    induction hx with
    | refl => exact ⟨rfl, rfl, fun o ho => by simp at ho⟩
    | @step y y' r hy hg hi ha ih =>
      obtain ⟨i1, i2, i3⟩ := ih
      obtain ⟨-, b2, -, -, -, -, b7, -⟩ := afterIntegrate_basic sv y r
      have b8 := (afterIntegrate_h5 sv y r).2
      rw [ha] at b2 b7 b8
      simp only at b2 b7 b8
      refine ⟨by rw [b2, b7, i1]; simp; ring, ?_, ?_⟩
      · rw [b8, b7, List.map_append, i2, List.length_append, List.length_singleton, ← List.range'_append_1]
        simp only [List.map_cons, List.map_nil, outP, i1, List.range'_one]
        rw [add_right_comm]
      · intro o ho
        rw [b8, List.mem_append, List.mem_singleton] at ho
        rcases ho with ho | rfl
        · exact i3 o ho
        · exact ⟨y, r, hy, hi, rfl, rfl, rfl⟩
  obtain ⟨i1, i2, i3⟩ := key st1 hr
  rcases hst with rfl | ⟨r, hg, hi, rfl⟩
  · exact ⟨i2, i3⟩
  · obtain ⟨-, b2, -, -, -, -, b7, -⟩ := afterIntegrate_basic sv st1 r
    have b8 := (afterIntegrate_h5 sv st1 r).2
    refine ⟨?_, ?_⟩
    · rw [b8, b7, List.map_append, i2, List.length_append, List.length_singleton, ← List.range'_append_1]
      simp only [List.map_cons, List.map_nil, outP, i1, List.range'_one]
      rw [add_right_comm]
    · intro o ho
      rw [b8, List.mem_append, List.mem_singleton] at ho
      rcases ho with ho | rfl
      · exact i3 o ho
      · exact ⟨st1, r, hr, hi, rfl, rfl, rfl⟩

/-- C40.  The result file at any moment of a run started with new files (mode 'w') holds, in order, exactly the records of the steps
so far whose number is a multiple of `write_result`; each record is the data of the context after the update callback of that
step (after the components have been updated from it).  With an existing file (another mode) the old records come first. -/
theorem C40_results (sv : Solver S C D) (p : Params) (s : S) (d : Disk D) (st : St S C D)
    (h : Seen sv (start sv p s (fresh d)) st) :
    st.h5.disk.w = (if p.truncate = true ∧ st.took ≠ [] then [] else d.w) ++
      (st.outs.filter fun o => o.1.tstep % p.write_result = 0).map
        fun o => (o.1.tstep, sv.results (sv.update_components o.2)) := by
  have := h.inv (fun x => x.outs.length = x.took.length ∧ x.p.write_result = p.write_result ∧ x.p.truncate = p.truncate ∧
      x.h5.wfile = (decide (x.took ≠ [])) ∧
      x.h5.disk.w = (if p.truncate = true ∧ x.took ≠ [] then [] else d.w) ++
      (x.outs.filter fun o => o.1.tstep % p.write_result = 0).map
        fun o => (o.1.tstep, sv.results (sv.update_components o.2)))
    ⟨rfl, rfl, rfl, rfl, by simp [fresh]⟩ (by
      intro x r ⟨h0, h1, h2, h3, h4⟩ _ _
      obtain ⟨-, b2, -, b4, -, b6, b7, -⟩ := afterIntegrate_basic sv x r
      obtain ⟨c1, c2⟩ := afterIntegrate_h5 sv x r
      refine ⟨by rw [c2, b7]; simp [h0], by rw [b4, h1], by rw [b6, h2], by rw [c1, b7]; simp [h5update], ?_⟩
      rw [c1, c2, b7, h5update_w, List.filter_append, List.map_append, ← List.append_assoc]
      have e1 : (outP x r).truncate = p.truncate := h2
      have e2 : (outP x r).write_result = p.write_result := h1
      have e3 : (outP x r).tstep = x.p.tstep + 1 := rfl
      congr 1
      · rw [h3, e1, h4]
        by_cases ht : x.took = []
        · have : x.outs = [] := by
            rw [ht, List.length_nil] at h0
            exact List.length_eq_zero_iff.1 h0
          by_cases hp : p.truncate = true <;> simp [ht, hp, this]
        · simp [ht]
      · rw [e2]
        by_cases hw : (x.p.tstep + 1) % p.write_result = 0 <;> simp [hw, e3])
  exact this.2.2.2.2

/-- C40.  In particular, with new files: the file holds a record with number `n` iff `n` is one of the steps of this run and a multiple of
`write_result`, and no number occurs twice. -/
theorem C40_schedule (sv : Solver S C D) (p : Params) (s : S) (d : Disk D) (st : St S C D)
    (h : Seen sv (start sv p s (fresh d)) st) (hnew : p.truncate = true ∧ st.took ≠ [] ∨ d.w = []) (n : ℕ) :
    ((∃ x, (n, x) ∈ st.h5.disk.w) ↔ p.tstep < n ∧ n ≤ p.tstep + st.took.length ∧ p.write_result ∣ n) ∧
    (st.h5.disk.w.map Prod.fst).Nodup := by
  have hmap := (C40_one_output_per_step sv p s (fresh d) st h).1
  have hw := C40_results sv p s d st h
  have hpre : (if p.truncate = true ∧ st.took ≠ [] then [] else d.w) = ([] : List (ℕ × D)) := by
    rcases hnew with h | h
    · rw [if_pos h]
    · split_ifs <;> simp [h]
  rw [hpre, List.nil_append] at hw
  constructor
  · rw [hw]
    have hmem : ∀ m, (∃ o ∈ st.outs, o.1.tstep = m) ↔ p.tstep < m ∧ m ≤ p.tstep + st.took.length := by
      intro m
      have : (∃ o ∈ st.outs, o.1.tstep = m) ↔ m ∈ st.outs.map (fun o => o.1.tstep) := by simp
      rw [this, hmap, List.mem_range'_1]
      omega
    simp only [List.mem_map, List.mem_filter, decide_eq_true_eq, Prod.mk.injEq]
    constructor
    · rintro ⟨x, o, ⟨ho, hm⟩, rfl, -⟩
      obtain ⟨a, b⟩ := (hmem o.1.tstep).1 ⟨o, ho, rfl⟩
      exact ⟨a, b, Nat.dvd_of_mod_eq_zero hm⟩
    · rintro ⟨a, b, c⟩
      obtain ⟨o, ho, rfl⟩ := (hmem n).2 ⟨a, b⟩
      exact ⟨_, o, ⟨ho, Nat.mod_eq_zero_of_dvd c⟩, rfl, rfl⟩
  · rw [hw, List.map_map]
    have hf : (Prod.fst ∘ fun o : Params × S => (o.1.tstep, sv.results (sv.update_components o.2))) = fun o => o.1.tstep := rfl
    rw [hf]
    have : (st.outs.map (fun o => o.1.tstep)).Nodup := by rw [hmap]; exact List.nodup_range'
    exact this.sublist (List.filter_sublist.map _)

/-! ## C41 -/

/-- The last step of a history in which a checkpoint was due: a multiple of the interval, or killed. -/
def lastDue (sv : Solver S C D) (checkpoint : ℕ) (outs : List (Params × S)) : Option (Params × S) :=
  (outs.filter fun o => o.1.tstep % checkpoint = 0 ∨ sv.killed o.1.tstep = true).getLast?

theorem foldl_levels (lvs : List (ℕ × (S → D))) (hnd : (lvs.map Prod.fst).Nodup) (n : ℕ) (t : ℝ) (s : S) (d : Disk D) :
    let d' := (lvs.flatMap fun lv => [FileOp.writeLevel lv.1 (lv.2 s), .setTstep n, .setT t]).foldl FileOp.apply d
    (∀ lv ∈ lvs, d'.c.levels lv.1 = some (lv.2 s)) ∧ (∀ k, k ∉ lvs.map Prod.fst → d'.c.levels k = d.c.levels k) ∧
    (lvs ≠ [] → d'.c.tstep = n ∧ d'.c.t = t) ∧ (lvs = [] → d' = d) := by
  induction lvs generalizing d with
  | nil => simp
  | cons a l ih =>
    rw [List.map_cons, List.nodup_cons] at hnd
    obtain ⟨hna, hnd⟩ := hnd
    simp only [List.flatMap_cons, List.foldl_append, List.foldl_cons, List.foldl_nil]
    set d1 := FileOp.apply (FileOp.apply (FileOp.apply d (.writeLevel a.1 (a.2 s))) (.setTstep n)) (.setT t) with hd1
    obtain ⟨i1, i2, i3, i4⟩ := ih hnd d1
    have e1 : d1.c.levels = Function.update d.c.levels a.1 (some (a.2 s)) := rfl
    have e2 : d1.c.tstep = n ∧ d1.c.t = t := ⟨rfl, rfl⟩
    refine ⟨?_, ?_, fun _ => ?_, fun h => by simp at h⟩
    · intro lv hlv
      rcases List.mem_cons.1 hlv with rfl | hlv
      · rw [i2 _ hna, e1, Function.update_self]
      · exact i1 lv hlv
    · intro k hk
      rw [List.map_cons, List.mem_cons, not_or] at hk
      rw [i2 k hk.2, e1, Function.update_of_ne hk.1]
    · by_cases hl : l = []
      · subst hl; exact e2
      · exact i3 hl

/-- The checkpoint file is not touched by the other operations. -/
theorem h5update_c (sv : Solver S C D) (p : Params) (s : S) (h : H5 D) :
    (h5update sv p s h).2.1.disk.c = ((checkpointOps sv p (resultState sv p s)).foldl FileOp.apply
      ⟨if h.cfile then h.disk.c else if p.truncate then ⟨fun _ => none, 0, 0⟩ else ⟨h.disk.c.levels, 0, 0⟩,
        (h5update sv p s h).2.1.disk.w⟩).c := by
  have key : ∀ (ops : List (FileOp D)) (d d' : Disk D), d.c = d'.c → (ops.foldl FileOp.apply d).c = (ops.foldl FileOp.apply d').c := by
    intro ops
    induction ops with
    | nil => intro d d' h; exact h
    | cons o l ih =>
      intro d d' h
      apply ih
      cases o <;> simp [FileOp.apply, h]
  simp only [h5update, updateOps, List.foldl_append]
  apply key
  unfold openOps resultOps
  rcases h with ⟨_ | _, _ | _, d⟩ <;> rcases hp : p.truncate <;> split_ifs <;> simp_all [FileOp.apply]

/-- C41.  At every moment of a run between two file updates (and after the last one, also when the run is killed), for a solver
whose checkpoint levels are not changed by updating the components for the result file: if a checkpoint has been due,
the file holds for every level the data of the last step in which it was due, and `tstep` and `t` of that step;
if none has been due yet the file has no data of this run and the stamps are zero. -/
theorem C41_consistent (sv : Solver S C D) (hnd : (sv.levels.map Prod.fst).Nodup) (hne : sv.levels ≠ [])
    (hcomp : ∀ lv ∈ sv.levels, ∀ s, lv.2 (sv.update_components s) = lv.2 s) (p : Params) (s : S) (d : Disk D) (st : St S C D)
    (h : Seen sv (start sv p s (fresh d)) st) :
    (∀ o, lastDue sv p.checkpoint st.outs = some o →
      (∀ lv ∈ sv.levels, st.h5.disk.c.levels lv.1 = some (lv.2 o.2)) ∧ st.h5.disk.c.tstep = o.1.tstep ∧ st.h5.disk.c.t = o.1.t) ∧
    (lastDue sv p.checkpoint st.outs = none → st.took ≠ [] →
      st.h5.disk.c = ⟨if p.truncate then fun _ => none else d.c.levels, 0, 0⟩) := by
  have := h.inv (fun x => x.p.checkpoint = p.checkpoint ∧ x.p.truncate = p.truncate ∧ x.h5.cfile = (decide (x.took ≠ [])) ∧
      (x.took = [] → x.h5.disk.c = d.c) ∧
      (∀ o, lastDue sv p.checkpoint x.outs = some o → x.took ≠ [] ∧
        (∀ lv ∈ sv.levels, x.h5.disk.c.levels lv.1 = some (lv.2 o.2)) ∧ x.h5.disk.c.tstep = o.1.tstep ∧ x.h5.disk.c.t = o.1.t) ∧
      (lastDue sv p.checkpoint x.outs = none → x.took ≠ [] →
        x.h5.disk.c = ⟨if p.truncate then fun _ => none else d.c.levels, 0, 0⟩))
    ⟨rfl, rfl, rfl, fun _ => rfl, fun o ho => by simp [lastDue] at ho, fun _ h => absurd rfl h⟩ (by
      intro x r ⟨h1, h2, h3, h4, h5, h6⟩ _ _
      obtain ⟨-, b2, -, b4, b5, b6, b7, -⟩ := afterIntegrate_basic sv x r
      obtain ⟨c1, c2⟩ := afterIntegrate_h5 sv x r
      refine ⟨by rw [b5, h1], by rw [b6, h2], by rw [c1, b7]; simp [h5update], fun hh => by rw [b7] at hh; simp at hh, ?_⟩
      rw [c1, c2, h5update_c, b7]
      set q := outP x r with hq
      set s1 := sv.update q r.1 with hs1
      have q1 : q.checkpoint = p.checkpoint := h1
      have hlev : ∀ lv ∈ sv.levels, lv.2 (resultState sv q s1) = lv.2 s1 := by
        intro lv hlv
        unfold resultState
        split_ifs
        · exact hcomp lv hlv s1
        · rfl
      unfold checkpointOps lastDue
      rw [q1, List.filter_append]
      by_cases hdue : q.tstep % p.checkpoint = 0 ∨ sv.killed q.tstep = true
      · rw [if_pos hdue]
        have hf : List.filter (fun o : Params × S => decide (o.1.tstep % p.checkpoint = 0 ∨ sv.killed o.1.tstep = true)) [(q, s1)] =
            [(q, s1)] := by simp [hdue]
        rw [hf, List.getLast?_append_cons, List.getLast?_singleton]
        refine ⟨?_, fun h => by simp at h⟩
        intro o ho
        injection ho with ho
        subst ho
        obtain ⟨f1, -, f3, -⟩ := foldl_levels sv.levels hnd q.tstep q.t (resultState sv q s1)
          ⟨if x.h5.cfile then x.h5.disk.c else if q.truncate then ⟨fun _ => none, 0, 0⟩ else ⟨x.h5.disk.c.levels, 0, 0⟩,
            (h5update sv q s1 x.h5).2.1.disk.w⟩
        refine ⟨by simp, fun lv hlv => ?_, (f3 hne).1, (f3 hne).2⟩
        rw [f1 lv hlv, hlev lv hlv]
      · rw [if_neg hdue]
        have hf : List.filter (fun o : Params × S => decide (o.1.tstep % p.checkpoint = 0 ∨ sv.killed o.1.tstep = true)) [(q, s1)] =
            [] := by simp [hdue]
        rw [hf, List.append_nil]
        simp only [List.foldl_nil]
        constructor
        · intro o ho
          obtain ⟨g1, g2⟩ := h5 o ho
          have : x.h5.cfile = true := by rw [h3]; simpa using g1
          rw [if_pos this]
          exact ⟨by simp, g2⟩
        · intro ho _
          by_cases ht : x.took = []
          · have : x.h5.cfile = false := by rw [h3]; simp [ht]
            have q2 : q.truncate = p.truncate := h2
            rw [this, h4 ht, q2]
            by_cases hp : p.truncate = true <;> simp [hp]
          · have : x.h5.cfile = true := by rw [h3]; simpa using ht
            rw [if_pos this]
            exact h6 ho ht)
  exact ⟨fun o ho => (this.2.2.2.2.1 o ho).2, this.2.2.2.2.2⟩

/-- A run of ten steps with results every third and checkpoints every fourth step: the records are 3, 6, 9, the checkpoint is that of step 8. -/
example : ∃ st, loop (counter (endChannel id)) 20 (start (counter (endChannel id)) ⟨0, 0.1, 1, 0, 3, 4, true⟩ 0
      (fresh ⟨⟨fun _ => none, 0, 0⟩, []⟩)) = .finished st ∧
    (∀ n, (∃ x, (n, x) ∈ st.h5.disk.w) ↔ 0 < n ∧ n ≤ 10 ∧ 3 ∣ n) ∧ st.h5.disk.c.tstep = 8 := by
  have cnt : ∀ m : ℕ, 1 ≤ m → (m ≤ 10 ↔ (0 : ℝ) + m * 0.1 ≤ 1 + 1e-12) := by
    intro m hm
    constructor
    · intro h
      have : (m : ℝ) ≤ 10 := by exact_mod_cast h
      norm_num; linarith
    · intro h
      by_contra h'
      have : (11 : ℝ) ≤ m := by exact_mod_cast (by omega : 11 ≤ m)
      norm_num at h; linarith
  obtain ⟨st, h1, h2, -⟩ := loop_channel (counter (endChannel id)) id (fun _ _ => rfl) (fun p s c => ⟨_, _, rfl⟩) (fun _ => rfl)
    0.1 10 20 (start (counter (endChannel id)) ⟨0, 0.1, 1, 0, 3, 4, true⟩ 0 (fresh ⟨⟨fun _ => none, 0, 0⟩, []⟩)) (by norm_num) rfl cnt
  have hlen : st.took.length = 10 := by rw [h2]; simp
  have hs := loop_finished_seen h1
  refine ⟨st, h1, fun n => ?_, ?_⟩
  · have := (C40_schedule _ _ _ _ st hs (Or.inr rfl) n).1
    rw [hlen] at this
    simpa using this
  · have hm := (C40_one_output_per_step _ _ _ _ st hs).1
    rw [hlen] at hm
    have hf : (st.outs.filter fun o => o.1.tstep % 4 = 0 ∨ (counter (endChannel id)).killed o.1.tstep = true).map (fun o => o.1.tstep) =
        [4, 8] := by
      have : (st.outs.filter fun o => decide (o.1.tstep % 4 = 0 ∨ (counter (endChannel id)).killed o.1.tstep = true)).map
          (fun o => o.1.tstep) = (st.outs.map fun o => o.1.tstep).filter fun n => decide (n % 4 = 0) := by
        rw [List.filter_map]
        congr 1
        apply List.filter_congr
        intro o _
        simp [counter]
      rw [this, hm]
      rfl
    have hlast : ∃ o, lastDue (counter (endChannel id)) 4 st.outs = some o ∧ o.1.tstep = 8 := by
      have : (lastDue (counter (endChannel id)) 4 st.outs).map (fun o => o.1.tstep) = some 8 := by
        unfold lastDue
        rw [← List.getLast?_map, hf]
        rfl
      rw [Option.map_eq_some_iff] at this
      exact this
    obtain ⟨o, ho, h8⟩ := hlast
    have := ((C41_consistent (counter (endChannel id)) (by decide) (by decide) (fun _ _ _ => rfl) _ _ _ st hs).1 o ho).2.1
    rw [this, h8]

/-! ## C42 -/

/-- The files when the process dies during the output of a step, after `k` file operations. -/
noncomputable def crashDisk (sv : Solver S C D) (p : Params) (s : S) (h : H5 D) (k : ℕ) : Disk D :=
  ((updateOps sv p s h).take k).foldl FileOp.apply h.disk

/-- The checkpoint file holds all levels and the time stamps of one single step. -/
def OneStep (sv : Solver S C D) (outs : List (Params × S)) (c : CFile D) : Prop :=
  ∃ o ∈ outs, c.tstep = o.1.tstep ∧ c.t = o.1.t ∧ ∀ lv ∈ sv.levels, c.levels lv.1 = some (lv.2 o.2)

/-- C42, finding.  The property is false of the code, for every solver and every checkpoint after the first one (`h` is the object after a
completed checkpoint of the step `o`): there is a crash point at which the first level has the data of the new step `(p, s)` while
the time stamps are still those of `o`. -/
theorem C42_torn_false (sv : Solver S C D) (l : ℕ) (f : S → D) (rest : List (ℕ × (S → D))) (hl : sv.levels = (l, f) :: rest)
    (p : Params) (s : S) (h : H5 D) (hc : h.cfile = true) (hdue : p.tstep % p.checkpoint = 0) :
    ∃ k, k < (updateOps sv p s h).length ∧ (crashDisk sv p s h k).c.levels l = some (f (resultState sv p s)) ∧
      (crashDisk sv p s h k).c.tstep = h.disk.c.tstep ∧ (crashDisk sv p s h k).c.t = h.disk.c.t := by
  have hops : updateOps sv p s h = (openOps p h ++ resultOps sv p s ++ [.writeLevel l (f (resultState sv p s))]) ++
      ([.setTstep p.tstep, .setT p.t] ++ (rest.flatMap fun lv => [.writeLevel lv.1 (lv.2 (resultState sv p s)), .setTstep p.tstep, .setT p.t])) := by
    simp [updateOps, checkpointOps, hdue, hl]
  refine ⟨(openOps p h ++ resultOps sv p s ++ [FileOp.writeLevel l (f (resultState sv p s))]).length, ?_, ?_⟩
  · rw [hops]; simp
  · rw [crashDisk, hops, List.take_left' rfl, List.foldl_append]
    have hc' : ((openOps p h ++ resultOps sv p s).foldl FileOp.apply h.disk).c = h.disk.c := by
      unfold openOps resultOps
      rcases h with ⟨_ | _, _ | _, d⟩ <;> rcases hp : p.truncate <;> split_ifs <;> simp_all [FileOp.apply]
    simp only [List.foldl_cons, List.foldl_nil, FileOp.apply, hc', Function.update_self, and_self]

/-- C42, finding, as a run: the counting solver with one result and one checkpoint every step, killed by a crash in the output of its second
step, leaves a checkpoint that belongs to no step. -/
theorem C42_run_false : ∃ (p : Params) (st : St ℕ Unit ℕ) (r : ℕ × Unit × ℝ × ℝ) (k : ℕ),
    Reach (counter endPeriodic) (start (counter endPeriodic) p 0 (fresh ⟨⟨fun _ => none, 0, 0⟩, []⟩)) st ∧
    (counter endPeriodic).integrate st.p st.s st.c = some r ∧
    OneStep (counter endPeriodic) st.outs st.h5.disk.c ∧
    ¬ OneStep (counter endPeriodic) (st.outs ++ [(outP st r, (counter endPeriodic).update (outP st r) r.1)])
      (crashDisk (counter endPeriodic) (outP st r) ((counter endPeriodic).update (outP st r) r.1) st.h5 k).c := by
  set sv := counter endPeriodic with hsv
  set p : Params := ⟨0, 1, 10, 0, 1, 1, true⟩ with hp
  set x := start sv p 0 (fresh ⟨⟨fun _ => none, 0, 0⟩, []⟩) with hx
  have hi : sv.integrate x.p x.s x.c = some (1, (), 1, 1) := rfl
  have hgo : ∀ s : ℕ, endPeriodic (outP x (1, (), 1, 1)) s = (1, s, false) := by
    intro s
    unfold endPeriodic
    simp only [outP, hx, hp]
    norm_num
  have ha := afterIntegrate_alive sv x (1, (), 1, 1) rfl
  have he : ∀ s : ℕ, sv.end_of_tstep (outP x (1, (), 1, 1)) s = (1, s, false) := hgo
  simp only [he, Bool.not_false] at ha
  have hr : Reach sv x _ := .step .refl (by norm_num [hx, hp]) hi ha
  refine ⟨p, _, (2, (), 1, 1), 2, hr, by simp [hsv, counter, h5update, resultState], ?_, ?_⟩
  · refine ⟨_, List.mem_append_right _ (List.mem_singleton_self _), ?_⟩
    simp [h5update, updateOps, openOps, resultOps, checkpointOps, hx, hp, fresh, outP, hsv, counter, FileOp.apply, resultState,
      Function.update]
  · rintro ⟨o, ho, h1, -, h3⟩
    have h0 := h3 (0, fun s => s) (by simp [hsv, counter])
    simp [h5update, updateOps, openOps, resultOps, checkpointOps, hx, hp, fresh, outP, hsv, counter, FileOp.apply, resultState,
      Function.update, crashDisk] at ho h1 h0
    rcases ho with rfl | rfl
    · simp at h0
    · simp at h1

/-- C42, what is left: wherever the process dies during the output, each level is either untouched or has the data of the current step, each stamp is either
untouched or that of the current step (or zero, during the very first output), so nothing else can be in the file. -/
theorem C42_old_or_new_partial (sv : Solver S C D) (p : Params) (s : S) (h : H5 D) (hc : h.cfile = true) (k : ℕ) :
    (∀ l, (crashDisk sv p s h k).c.levels l = h.disk.c.levels l ∨
      ∃ lv ∈ sv.levels, lv.1 = l ∧ (crashDisk sv p s h k).c.levels l = some (lv.2 (resultState sv p s))) ∧
    ((crashDisk sv p s h k).c.tstep = h.disk.c.tstep ∨ (crashDisk sv p s h k).c.tstep = p.tstep) ∧
    ((crashDisk sv p s h k).c.t = h.disk.c.t ∨ (crashDisk sv p s h k).c.t = p.t) := by
  have hops : ∀ o ∈ (updateOps sv p s h).take k, o = .truncW ∨ (∃ n x, o = .writeResult n x) ∨
      (∃ lv ∈ sv.levels, o = .writeLevel lv.1 (lv.2 (resultState sv p s))) ∨ o = .setTstep p.tstep ∨ o = .setT p.t := by
    intro o ho
    have := List.mem_of_mem_take ho
    simp only [updateOps, List.mem_append] at this
    rcases this with (ho | ho) | ho
    · unfold openOps at ho
      simp only [hc, if_true, List.nil_append] at ho
      split_ifs at ho
      · simp at ho
      · left; simpa using ho
      · simp at ho
    · unfold resultOps at ho
      split_ifs at ho
      · right; left; exact ⟨_, _, by simpa using ho⟩
      · simp at ho
    · unfold checkpointOps at ho
      split_ifs at ho
      · rw [List.mem_flatMap] at ho
        obtain ⟨lv, hlv, ho⟩ := ho
        simp only [List.mem_cons, List.not_mem_nil, or_false] at ho
        rcases ho with rfl | rfl | rfl
        · exact Or.inr (Or.inr (Or.inl ⟨lv, hlv, rfl⟩))
        · simp
        · simp
      · simp at ho
  unfold crashDisk
  generalize (updateOps sv p s h).take k = ops at hops
  have key : ∀ (ops : List (FileOp D)), (∀ o ∈ ops, o = .truncW ∨ (∃ n x, o = .writeResult n x) ∨
      (∃ lv ∈ sv.levels, o = .writeLevel lv.1 (lv.2 (resultState sv p s))) ∨ o = .setTstep p.tstep ∨ o = .setT p.t) → ∀ d : Disk D,
      ((∀ l, d.c.levels l = h.disk.c.levels l ∨ ∃ lv ∈ sv.levels, lv.1 = l ∧ d.c.levels l = some (lv.2 (resultState sv p s))) ∧
        (d.c.tstep = h.disk.c.tstep ∨ d.c.tstep = p.tstep) ∧ (d.c.t = h.disk.c.t ∨ d.c.t = p.t)) →
      ((∀ l, (ops.foldl FileOp.apply d).c.levels l = h.disk.c.levels l ∨
        ∃ lv ∈ sv.levels, lv.1 = l ∧ (ops.foldl FileOp.apply d).c.levels l = some (lv.2 (resultState sv p s))) ∧
        ((ops.foldl FileOp.apply d).c.tstep = h.disk.c.tstep ∨ (ops.foldl FileOp.apply d).c.tstep = p.tstep) ∧
        ((ops.foldl FileOp.apply d).c.t = h.disk.c.t ∨ (ops.foldl FileOp.apply d).c.t = p.t)) := by
    intro ops
    induction ops with
    | nil => intro _ d hd; exact hd
    | cons o l ih =>
      intro ho d ⟨h1, h2, h3⟩
      rw [List.foldl_cons]
      apply ih (fun x hx => ho x (List.mem_cons_of_mem _ hx))
      rcases ho o (List.mem_cons_self ..) with rfl | ⟨n, x, rfl⟩ | ⟨lv, hlv, rfl⟩ | rfl | rfl
      · exact ⟨h1, h2, h3⟩
      · exact ⟨h1, h2, h3⟩
      · refine ⟨fun l' => ?_, h2, h3⟩
        by_cases e : l' = lv.1
        · right
          exact ⟨lv, hlv, e.symm, by rw [e]; simp [FileOp.apply]⟩
        · have : (FileOp.apply d (.writeLevel lv.1 (lv.2 (resultState sv p s)))).c.levels l' = d.c.levels l' := by
            simp [FileOp.apply, Function.update_of_ne e]
          rw [this]
          exact h1 l'
      · exact ⟨h1, Or.inr rfl, h3⟩
      · exact ⟨h1, h2, Or.inr rfl⟩
  exact key ops hops h.disk ⟨fun _ => Or.inl rfl, Or.inl rfl, Or.inl rfl⟩

/-- C42, finding.  Continuing in the same directory with a file mode that does not truncate: from the first output of the new run until its first
checkpoint the file has the levels of the old run but `tstep = 0` and `t = 0`. -/
theorem C42_append_false (sv : Solver S C D) (p : Params) (s : S) (d : Disk D) (htr : p.truncate = false)
    (hno : ¬ (p.tstep % p.checkpoint = 0 ∨ sv.killed p.tstep = true)) :
    (h5update sv p s (fresh d)).2.1.disk.c = ⟨d.c.levels, 0, 0⟩ := by
  rw [h5update_c]
  simp [checkpointOps, hno, fresh, htr]

/-! ## C43 -/

theorem collective_pos {n : ℕ} (found : Fin (n + 1) → Bool) : 0 < ∑ r, (if found r then 1 else 0) ↔ ∃ r, found r = true := by
  constructor
  · intro h
    by_contra hc
    push Not at hc
    rw [Finset.sum_eq_zero (fun r _ => by simp [hc r])] at h
    exact lt_irrefl _ h
  · rintro ⟨r, hr⟩
    refine Finset.sum_pos' (fun _ _ => Nat.zero_le _) ⟨r, Finset.mem_univ _, by simp [hr]⟩

/-- C43.  On any number of ranks, if the kill file exists when rank 0 removes it or nobody has seen it: if some rank sees the kill file, then every rank
exits in this step, and the checkpoint file of every rank then has all levels, `tstep` and `t` of this step; if none sees it no rank
exits. -/
theorem C43_all_ranks_partial {n : ℕ} (sv : Solver S C D) (hnd : (sv.levels.map Prod.fst).Nodup) (hne : sv.levels ≠ [])
    (found : Fin (n + 1) → Bool) (present : Bool) (hp : present = true ∨ ∀ r, found r = false) (p : Params) (s : S) (h : H5 D) :
    ((∃ r, found r = true) → ∀ rank, ∃ s' h', rankUpdate sv found present rank p s h = some (s', h', true) ∧
      (∀ lv ∈ sv.levels, h'.disk.c.levels lv.1 = some (lv.2 s')) ∧ h'.disk.c.tstep = p.tstep ∧ h'.disk.c.t = p.t) ∧
    ((∀ r, found r = false) → ∀ rank, ∃ s' h', rankUpdate sv found present rank p s h = some (s', h', false)) := by
  constructor
  · intro hf rank
    have hpr : present = true := by
      rcases hp with h | h
      · exact h
      · obtain ⟨r, hr⟩ := hf; rw [h r] at hr; simp at hr
    have hk : checkIfKill found present rank = some true := by
      unfold checkIfKill
      rw [if_pos ((collective_pos found).2 hf), hpr]
      simp
    simp only [rankUpdate, hk, Option.map_some]
    refine ⟨(h5update { sv with killed := fun _ => true } p s h).1, (h5update { sv with killed := fun _ => true } p s h).2.1, rfl, ?_⟩
    rw [h5update_c]
    unfold checkpointOps
    rw [if_pos (Or.inr rfl)]
    obtain ⟨f1, -, f3, -⟩ := foldl_levels sv.levels hnd p.tstep p.t (resultState { sv with killed := fun _ => true } p s)
      ⟨if h.cfile then h.disk.c else if p.truncate then ⟨fun _ => none, 0, 0⟩ else ⟨h.disk.c.levels, 0, 0⟩,
        (h5update { sv with killed := fun _ => true } p s h).2.1.disk.w⟩
    exact ⟨f1, f3 hne⟩
  · intro hf rank
    have hk : checkIfKill found present rank = some false := by
      unfold checkIfKill
      rw [if_neg]
      rw [gt_iff_lt, collective_pos]
      push Not
      intro r
      rw [hf r]; simp
    simp only [rankUpdate, hk, Option.map_some]
    exact ⟨_, _, rfl⟩

/-- C43, finding: when only a rank other than 0 has the file (ranks with different working directories), rank 0 raises in
`os.remove` instead of writing its checkpoint, while all other ranks go on to the collective write. -/
theorem C43_other_directory_false {n : ℕ} (sv : Solver S C D) (found : Fin (n + 2) → Bool) (r : Fin (n + 2)) (hr : found r = true)
    (p : Params) (s : S) (h : H5 D) :
    rankUpdate sv found false 0 p s h = none ∧ ∀ rank ≠ 0, ∃ s' h', rankUpdate sv found false rank p s h = some (s', h', true) := by
  have hpos := (collective_pos found).2 ⟨r, hr⟩
  constructor
  · simp only [rankUpdate, checkIfKill, gt_iff_lt, hpos, if_true, Bool.false_eq_true, if_false, Option.map_none]
  · intro rank h0
    simp only [rankUpdate, checkIfKill, gt_iff_lt, hpos, if_true, h0, if_false, Option.map_some]
    exact ⟨_, _, rfl⟩

/-- Four ranks, the file seen by one of them. -/
example : ∀ rank : Fin 4, ∃ s' h', rankUpdate (counter endPeriodic) (fun r => decide (r = 2)) true rank ⟨0.5, 0.1, 1, 5, 10, 10, true⟩ 5
    (fresh ⟨⟨fun _ => none, 0, 0⟩, []⟩) = some (s', h', true) ∧ h'.disk.c.levels 0 = some s' ∧ h'.disk.c.tstep = 5 := by
  intro rank
  obtain ⟨s', h', h1, h2, h3, -⟩ := (C43_all_ranks_partial (counter endPeriodic) (by decide) (by decide) (fun r : Fin 4 => decide (r = 2)) true
    (Or.inl rfl) ⟨0.5, 0.1, 1, 5, 10, 10, true⟩ 5 (fresh ⟨⟨fun _ => none, 0, 0⟩, []⟩)).1 ⟨2, rfl⟩ rank
  exact ⟨s', h', h1, h2 (0, fun s => s) (by simp [counter]), h3⟩

end SpectralDNS.Solve

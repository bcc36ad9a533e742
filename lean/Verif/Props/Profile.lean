import Verif.Model.Profile
import Verif.Spec.Profile
import Mathlib.Order.Bounds.Basic
import Mathlib.Tactic.Linarith
import Mathlib.Data.List.Nodup

/-!
# C118, C119: the profile
-/

namespace SpectralDNS.Profile

open Spec.Profile

variable {p : ℕ}

theorem eraseP_eq_filter {f : Key → Bool} : ∀ {l : List Key}, l.Nodup → (∀ a ∈ l, ∀ b ∈ l, f a → f b → a = b) → l.eraseP f = l.filter fun k => !f k
  | [], _, _ => rfl
  | a :: l, hn, hu => by
    rw [List.nodup_cons] at hn
    by_cases h : f a
    · rw [List.eraseP_cons_of_pos h, List.filter_cons_of_neg (by simp [h])]
      refine (List.filter_eq_self.2 fun x hx => ?_).symm
      by_contra hc
      have hx' : f x := by simpa using hc
      exact hn.1 (hu a (by simp) x (by simp [hx]) h hx' ▸ hx)
    · rw [List.eraseP_cons_of_neg h, List.filter_cons_of_pos (by simp [h]),
        eraseP_eq_filter hn.2 fun x hx y hy => hu x (by simp [hx]) y (by simp [hy])]

theorem owner_cons (it : String) (its : List String) (item : String) (k : Key) :
    Owner hits (it :: its) item k ↔ (hits it k ∧ item = it) ∨ (¬ hits it k ∧ Owner hits its item k) := by
  unfold Owner
  by_cases h : hits it k
  · rw [List.find?_cons_of_pos (by simpa using h)]
    simp [h, eq_comm]
  · rw [List.find?_cons_of_neg (by simpa using h)]
    simp [h]

theorem clear_unique {it : String} {its : List String} {st : List Key} (h : Clear hits (it :: its) st) : ∀ a ∈ st, ∀ b ∈ st, hits it a → hits it b → a = b :=
  fun a ha b hb h1 h2 => h a ha b hb it ((owner_cons _ _ _ _).2 (Or.inl ⟨h1, rfl⟩)) ((owner_cons _ _ _ _).2 (Or.inl ⟨h2, rfl⟩))

theorem clear_filter {it : String} {its : List String} {st : List Key} (h : Clear hits (it :: its) st) : Clear hits its (st.filter fun k => !hits it k) := by
  intro a ha b hb item h1 h2
  rw [List.mem_filter] at ha hb
  exact h a ha.1 b hb.1 item ((owner_cons _ _ _ _).2 (Or.inr ⟨by simpa using ha.2, h1⟩)) ((owner_cons _ _ _ _).2 (Or.inr ⟨by simpa using hb.2, h2⟩))

theorem clear_perm {its : List String} {st st' : List Key} (h : Clear hits its st) (hp : st'.Perm st) : Clear hits its st' :=
  fun a ha b hb => h a (hp.mem_iff.1 ha) b (hp.mem_iff.1 hb)

theorem scan_none {it : String} {its : List String} {st : List Key} (h : ∀ k ∈ st, ¬ hits it k) : scan (it :: its) st = scan its st := by
  rw [scan, List.find?_eq_none.2 h]

theorem find_of_unique {f : Key → Bool} {st : List Key} {k : Key} (hk : k ∈ st) (hf : f k) (hu : ∀ a ∈ st, ∀ b ∈ st, f a → f b → a = b) : st.find? f = some k := by
  cases h : st.find? f with
  | none => exact absurd hf (List.find?_eq_none.1 h k hk)
  | some a => rw [hu a (List.mem_of_find?_eq_some h) k hk (List.find?_some h) hf]

theorem scan_some {it : String} {its : List String} {st : List Key} {k : Key} (hn : st.Nodup) (hc : Clear hits (it :: its) st) (hk : k ∈ st) (hf : hits it k) :
    scan (it :: its) st = (it, k) :: scan its (st.filter fun k => !hits it k) := by
  have hu := clear_unique hc
  rw [scan, find_of_unique hk hf hu]
  show _ :: scan its _ = _
  rw [eraseP_eq_filter hn hu]

theorem scan_perm : ∀ (its : List String) {st st' : List Key}, st.Nodup → Clear hits its st → st'.Perm st → scan its st' = scan its st
  | [], _, _, _, _, _ => rfl
  | it :: its, st, st', hn, hc, hp => by
    by_cases h : ∃ k ∈ st, hits it k
    · obtain ⟨k, hk, hf⟩ := h
      rw [scan_some hn hc hk hf, scan_some (hp.symm.nodup hn) (clear_perm hc hp) (hp.mem_iff.2 hk) hf,
        scan_perm its (hn.filter _) (clear_filter hc) (hp.filter _)]
    · push Not at h
      rw [scan_none (st := st') fun k hk => by simpa using h k (hp.mem_iff.1 hk), scan_none (by simpa using h)]
      refine scan_perm its hn (fun a ha b hb item h1 h2 => hc a ha b hb item ?_ ?_) hp
      · exact (owner_cons _ _ _ _).2 (Or.inr ⟨by simpa using h a ha, h1⟩)
      · exact (owner_cons _ _ _ _).2 (Or.inr ⟨by simpa using h b hb, h2⟩)

theorem scan_mem : ∀ (its : List String) {st : List Key}, st.Nodup → Clear hits its st → ∀ item k, (item, k) ∈ scan its st ↔ k ∈ st ∧ Owner hits its item k
  | [], _, _, _, item, k => by simp [scan, Owner]
  | it :: its, st, hn, hc, item, k => by
    by_cases h : ∃ k ∈ st, hits it k
    · obtain ⟨k', hk', hf⟩ := h
      rw [scan_some hn hc hk' hf, List.mem_cons, scan_mem its (hn.filter _) (clear_filter hc), owner_cons, List.mem_filter]
      constructor
      · rintro (h | ⟨⟨h1, h2⟩, h3⟩)
        · obtain ⟨rfl, rfl⟩ := Prod.ext_iff.1 h
          exact ⟨hk', Or.inl ⟨hf, rfl⟩⟩
        · exact ⟨h1, Or.inr ⟨by simpa using h2, h3⟩⟩
      · rintro ⟨h1, h2 | h2⟩
        · left
          rw [h2.2, clear_unique hc k h1 k' hk' h2.1 hf]
        · exact Or.inr ⟨⟨h1, by simpa using h2.1⟩, h2.2⟩
    · push Not at h
      rw [scan_none (by simpa using h), scan_mem its hn (fun a ha b hb item h1 h2 => hc a ha b hb item
        ((owner_cons _ _ _ _).2 (Or.inr ⟨by simpa using h a ha, h1⟩)) ((owner_cons _ _ _ _).2 (Or.inr ⟨by simpa using h b hb, h2⟩))), owner_cons]
      constructor
      · rintro ⟨h1, h2⟩
        exact ⟨h1, Or.inr ⟨by simpa using h k h1, h2⟩⟩
      · rintro ⟨h1, h2 | h2⟩
        · exact absurd h2.1 (by simpa using h k h1)
        · exact ⟨h1, h2.2⟩

theorem scan_fst : ∀ (its : List String) (st : List Key), ((scan its st).map Prod.fst).Sublist its
  | [], _ => List.Sublist.refl _
  | it :: its, st => by
    rw [scan]
    split
    · exact (scan_fst its st).cons _
    · exact (scan_fst its _).cons_cons _

theorem scan_snd : ∀ (its : List String) (st : List Key), ((scan its st).map Prod.snd).Subperm st
  | [], st => by rw [scan]; exact List.nil_subperm
  | it :: its, st => by
    rw [scan]
    split
    · exact scan_snd its st
    · next k h =>
      have h1 : st.eraseP (hits it) = st.erase k := by
        clear! its
        induction st with
        | nil => simp at h
        | cons a l ih =>
          by_cases ha : hits it a
          · rw [List.find?_cons_of_pos ha] at h
            obtain rfl := Option.some.inj h
            rw [List.eraseP_cons_of_pos ha, List.erase_cons_head]
          · rw [List.find?_cons_of_neg ha] at h
            rw [List.eraseP_cons_of_neg ha, ih h, List.erase_cons_tail]
            intro hc
            rw [beq_iff_eq] at hc
            exact ha (hc ▸ List.find?_some h)
      rw [List.map_cons, h1]
      refine ((List.subperm_cons k).2 (scan_snd its _)).trans ?_
      exact (List.perm_cons_erase (List.mem_of_find?_eq_some h)).symm.subperm

theorem scan_hits : ∀ (its : List String) (st : List Key), ∀ x ∈ scan its st, hits x.1 x.2
  | [], _ => by simp [scan]
  | it :: its, st => by
    rw [scan]
    split
    · exact scan_hits its st
    · next k h =>
      intro x hx
      rcases List.mem_cons.1 hx with rfl | hx
      · exact List.find?_some h
      · exact scan_hits its _ x hx

theorem exchange_same (S : List (String × Key)) (tt ct : Fin (p + 1) → Key → ℝ) :
    exchange (fun r => S.flatMap fun x => calls (tt r) (ct r) x.2) = some (S.flatMap fun x =>
      [reduce .MIN fun r => tt r x.2, reduce .MAX fun r => tt r x.2, reduce .MIN fun r => ct r x.2, reduce .MAX fun r => ct r x.2]) := by
  have hl : ∀ r, (S.flatMap fun x => calls (tt r) (ct r) x.2).length = (S.flatMap fun x => calls (tt 0) (ct 0) x.2).length := fun r => by
    simp [List.length_flatMap, calls]
  rw [exchange, if_pos hl]
  congr 1
  clear hl
  induction S with
  | nil => rfl
  | cons x S ih =>
    simp only [List.flatMap_cons, calls, List.cons_append, List.nil_append, List.length_cons, List.range_succ_eq_map, List.map_cons, List.map_map]
    rw [← ih]
    simp only [List.getD_cons_zero, List.getD_cons_succ, calls]
    rfl

theorem group_same (S : List (String × Key)) (a b c d : Key → ℝ) :
    group (S.map Prod.fst) (S.flatMap fun x => [a x.2, b x.2, c x.2, d x.2]) = S.map fun x => (x.1, a x.2, b x.2, c x.2, d x.2) := by
  induction S with
  | nil => rfl
  | cons x S ih => simp [group, ih]

theorem report_eq {stats : Fin (p + 1) → List Key} (tt ct : Fin (p + 1) → Key → ℝ) {S : List (String × Key)} (h : ∀ r, scan items (stats r) = S) :
    create_profile stats tt ct = some (S.map fun x => (x.1, reduce .MIN fun r => tt r x.2, reduce .MAX fun r => tt r x.2, reduce .MIN fun r => ct r x.2,
      reduce .MAX fun r => ct r x.2)) := by
  rw [create_profile]
  simp only [h]
  rw [exchange_same, Option.map_some, group_same S (fun k => reduce .MIN fun r => tt r k) (fun k => reduce .MAX fun r => tt r k)
    (fun k => reduce .MIN fun r => ct r k) fun k => reduce .MAX fun r => ct r k]

theorem reduce_min (v : Fin (p + 1) → ℝ) : IsLeast (Set.range v) (reduce .MIN v) := by
  obtain ⟨r, -, hr⟩ := Finset.exists_mem_eq_inf' (Finset.univ_nonempty (α := Fin (p + 1))) v
  exact ⟨⟨r, hr.symm⟩, by rintro _ ⟨r, rfl⟩; exact Finset.inf'_le _ (Finset.mem_univ r)⟩

theorem reduce_max (v : Fin (p + 1) → ℝ) : IsGreatest (Set.range v) (reduce .MAX v) := by
  obtain ⟨r, -, hr⟩ := Finset.exists_mem_eq_sup' (Finset.univ_nonempty (α := Fin (p + 1))) v
  exact ⟨⟨r, hr.symm⟩, by rintro _ ⟨r, rfl⟩; exact Finset.le_sup' _ (Finset.mem_univ r)⟩

/-- A row of the printed table: the least and the largest own time and the least and the largest cumulative time over all ranks, of the same function. -/
def Row (tt ct : Fin (p + 1) → Key → ℝ) (k : Key) (v : ℝ × ℝ × ℝ × ℝ) : Prop :=
  IsLeast (Set.range fun r => tt r k) v.1 ∧ IsGreatest (Set.range fun r => tt r k) v.2.1 ∧
  IsLeast (Set.range fun r => ct r k) v.2.2.1 ∧ IsGreatest (Set.range fun r => ct r k) v.2.2.2

/-- C118: if all ranks have recorded the same functions, in any order, and no two of these are first matched by the same name, then the profile has a row for
each name that is the first match of a recorded function, in the order of the list, with the extreme times of this function. -/
theorem C118_report_partial {stats : Fin (p + 1) → List Key} (tt ct : Fin (p + 1) → Key → ℝ) (hn : (stats 0).Nodup) (hp : ∀ r, (stats r).Perm (stats 0))
    (hc : Clear hits items (stats 0)) : ∃ l, create_profile stats tt ct = some l ∧ (l.map Prod.fst).Sublist items ∧
      (∀ item, item ∈ l.map Prod.fst ↔ ∃ k ∈ stats 0, Owner hits items item k) ∧
      ∀ x ∈ l, ∃ k ∈ stats 0, Owner hits items x.1 k ∧ Row tt ct k x.2 := by
  refine ⟨_, report_eq tt ct fun r => scan_perm items hn hc (hp r), ?_, fun item => ?_, fun x hx => ?_⟩
  · rw [List.map_map]
    exact scan_fst items _
  · rw [List.map_map, List.mem_map]
    constructor
    · rintro ⟨⟨i, k⟩, h, rfl⟩
      exact ⟨k, (scan_mem items hn hc i k).1 h⟩
    · rintro ⟨k, h⟩
      exact ⟨(item, k), (scan_mem items hn hc item k).2 h, rfl⟩
  · obtain ⟨⟨i, k⟩, h, rfl⟩ := List.mem_map.1 hx
    have := (scan_mem items hn hc i k).1 h
    exact ⟨k, this.1, this.2, reduce_min _, reduce_max _, reduce_min _, reduce_max _⟩

/-- C118: then the numbers of each row are in the order one expects. -/
theorem C118_ordered_partial {stats : Fin (p + 1) → List Key} (tt ct : Fin (p + 1) → Key → ℝ) (hn : (stats 0).Nodup) (hp : ∀ r, (stats r).Perm (stats 0))
    (hc : Clear hits items (stats 0)) (ht : ∀ r k, tt r k ≤ ct r k) : ∃ l, create_profile stats tt ct = some l ∧
      ∀ x ∈ l, x.2.1 ≤ x.2.2.1 ∧ x.2.2.2.1 ≤ x.2.2.2.2 ∧ x.2.1 ≤ x.2.2.2.1 ∧ x.2.2.1 ≤ x.2.2.2.2 := by
  obtain ⟨l, h, -, -, hr⟩ := C118_report_partial tt ct hn hp hc
  refine ⟨l, h, fun x hx => ?_⟩
  obtain ⟨k, -, -, h1, h2, h3, h4⟩ := hr x hx
  refine ⟨(h1.2 ⟨0, rfl⟩).trans (h2.2 ⟨0, rfl⟩), (h3.2 ⟨0, rfl⟩).trans (h4.2 ⟨0, rfl⟩), ?_, ?_⟩
  · obtain ⟨r, hr⟩ := h3.1
    rw [← hr]
    exact (h1.2 ⟨r, rfl⟩).trans (ht r k)
  · obtain ⟨r, hr⟩ := h2.1
    rw [← hr]
    exact (ht r k).trans (h4.2 ⟨r, rfl⟩)

theorem within_iff (s t : String) : within s t = true ↔ s.toList <:+: t.toList := by
  rw [within, List.any_eq_true, List.infix_iff_prefix_suffix]
  simp only [List.mem_tails, List.isPrefixOf_iff_prefix]
  exact ⟨fun ⟨u, h1, h2⟩ => ⟨u, h2, h1⟩, fun ⟨u, h1, h2⟩ => ⟨u, h2, h1⟩⟩

/-- C118: which functions a name is looked for in. -/
theorem C118_match (item : String) (k : Key) : hits item k = true ↔ Matches item k.name := by
  rw [hits, Bool.or_eq_true, Bool.or_eq_true, within_iff, within_iff, beq_iff_eq, Matches, or_assoc, eq_comm]

/-- C118: on every rank, whatever was recorded, each recorded function is counted under at most one name, and that name matches it. -/
theorem C118_once (st : List Key) (hn : st.Nodup) : ((scan items st).map Prod.fst).Nodup ∧ ((scan items st).map Prod.snd).Nodup ∧
    ∀ x ∈ scan items st, x.1 ∈ items ∧ x.2 ∈ st ∧ Matches x.1 x.2.name := by
  refine ⟨(scan_fst items st).nodup (by decide), ?_, fun x hx => ⟨(scan_fst items st).subset (List.mem_map_of_mem hx),
    (scan_snd items st).subset (List.mem_map_of_mem hx), (C118_match _ _).1 (scan_hits items st x hx)⟩⟩
  obtain ⟨l, h1, h2⟩ := scan_snd items st
  exact h1.nodup (h2.nodup hn)

/-- C118: the ranks wait for each other for ever exactly if they have found different numbers of names. -/
theorem C118_blocked (stats : Fin (p + 1) → List Key) (tt ct : Fin (p + 1) → Key → ℝ) :
    create_profile stats tt ct = none ↔ ∃ r, (scan items (stats r)).length ≠ (scan items (stats 0)).length := by
  have hl : ∀ r, ((scan items (stats r)).flatMap fun x => calls (tt r) (ct r) x.2).length = 4 * (scan items (stats r)).length := fun r => by
    simp [List.length_flatMap, calls, mul_comm]
  rw [create_profile, exchange]
  simp only [hl]
  split_ifs with h
  · simp only [Option.map_some, reduceCtorEq, false_iff, not_exists, not_not]
    intro r
    have := h r
    omega
  · push Not at h
    simp only [Option.map_none, true_iff]
    obtain ⟨r, hr⟩ := h
    exact ⟨r, fun h => hr (by rw [h])⟩

/-- C118 is false without the condition on the names: two functions called `project`, which take one and five seconds on each of two ranks, recorded in
different orders; the table says that the time varies between one and five seconds over the ranks, and there is no such function. -/
theorem C118_order_false : ¬ ∀ (p : ℕ) (stats : Fin (p + 1) → List Key) (tt ct : Fin (p + 1) → Key → ℝ), (∀ r, (stats r).Nodup) → (∀ r, (stats r).Perm (stats 0)) →
    ∃ l, create_profile stats tt ct = some l ∧ ∀ x ∈ l, ∃ k ∈ stats 0, Row tt ct k x.2 := by
  intro h
  let f : Key := ⟨0, "project"⟩
  let g : Key := ⟨1, "project"⟩
  have s0 : scan items [f, g] = [("project", f)] := by decide +kernel
  have s1 : scan items [g, f] = [("project", g)] := by decide +kernel
  obtain ⟨l, hl, hr⟩ := h 1 (fun r => if r = 0 then [f, g] else [g, f]) (fun _ k => if k = f then 1 else 5) (fun _ k => if k = f then 1 else 5)
    (fun r => by split_ifs <;> decide) (fun r => by
      rw [if_pos rfl]
      split_ifs
      · rfl
      · exact List.Perm.swap _ _ _)
  have hgf : g ≠ f := by decide
  have hS : (fun r : Fin 2 => (scan items (if r = 0 then [f, g] else [g, f])).flatMap fun x =>
      calls (fun k => if k = f then (1 : ℝ) else 5) (fun k => if k = f then 1 else 5) x.2) =
      fun r => [(.MIN, if r = 0 then 1 else 5), (.MAX, if r = 0 then 1 else 5), (.MIN, if r = 0 then 1 else 5), (.MAX, if r = 0 then 1 else 5)] := by
    funext r
    split_ifs with hr
    · rw [s0]; simp [calls]
    · rw [s1]; simp [calls, hgf]
  have hm : IsLeast (Set.range fun r : Fin 2 => if r = 0 then (1 : ℝ) else 5) 1 :=
    ⟨⟨0, if_pos rfl⟩, by rintro _ ⟨r, rfl⟩; dsimp only; split_ifs <;> norm_num⟩
  have hM : IsGreatest (Set.range fun r : Fin 2 => if r = 0 then (1 : ℝ) else 5) 5 :=
    ⟨⟨1, if_neg (by decide)⟩, by rintro _ ⟨r, rfl⟩; dsimp only; split_ifs <;> norm_num⟩
  have e : ("project", 1, 5, 1, 5) ∈ l := by
    rw [create_profile, hS, if_pos rfl, s0] at hl
    simp [exchange, List.range_succ, group, (reduce_min _).unique hm, (reduce_max _).unique hM] at hl
    rw [← hl]
    simp
  obtain ⟨k, hk, ⟨⟨r, h1⟩, -⟩, ⟨⟨r', h2⟩, -⟩, -⟩ := hr _ e
  dsimp only at h1 h2
  exact absurd (h1.symm.trans h2) (by norm_num)

/-- C118 is false if a function was called on some of the ranks only: the others wait for ever. -/
theorem C118_missing_false : ¬ ∀ (p : ℕ) (stats : Fin (p + 1) → List Key) (tt ct : Fin (p + 1) → Key → ℝ), (∀ r, (stats r).Nodup) →
    (∀ r, Clear hits items (stats r)) → create_profile stats tt ct ≠ none := by
  intro h
  refine h 1 (fun r => if r = 0 then [⟨0, "RK4"⟩] else []) (fun _ _ => 1) (fun _ _ => 1) (fun r => ?_) (fun r => ?_) ((C118_blocked _ _ _).2 ⟨1, ?_⟩)
  · split_ifs <;> decide
  · split_ifs
    · intro a ha b hb
      simp only [List.mem_singleton] at ha hb
      rw [ha, hb]
      exact fun _ _ _ => rfl
    · intro a ha
      simp at ha
  · have s0 : scan items [⟨0, "RK4"⟩] = [("RK4", ⟨0, "RK4"⟩)] := by decide +kernel
    simp only [one_ne_zero, if_false, if_true, s0]
    decide +kernel

/-- Functions that several names match: `rfftn` is looked for before `rfft` and takes `pyfftw.rfftn`, which `.rfft` matches too. -/
example (tt ct : Fin 3 → Key → ℝ) : ∃ l, create_profile (fun r => if r = 1 then [⟨2, "<pyfftw.rfft>"⟩, ⟨1, "<pyfftw.rfftn>"⟩, ⟨0, "RK4"⟩]
    else [⟨0, "RK4"⟩, ⟨1, "<pyfftw.rfftn>"⟩, ⟨2, "<pyfftw.rfft>"⟩]) tt ct = some l ∧ l.map Prod.fst = ["rfftn", "rfft", "RK4"] := by
  refine ⟨_, report_eq tt ct (S := [("rfftn", ⟨1, "<pyfftw.rfftn>"⟩), ("rfft", ⟨2, "<pyfftw.rfft>"⟩), ("RK4", ⟨0, "RK4"⟩)]) fun r => ?_, rfl⟩
  split_ifs <;> decide +kernel

/-! ## The profiler in `solve` -/

section

variable {A : Type*}

theorem turn_on {s : Profiler A} (h : s.on = true) (b : Bool) (t : List A × List A) : turn b s t = ⟨true, s.stats ++ t.1 ++ t.2⟩ := by
  obtain ⟨on, st⟩ := s
  obtain rfl : on = true := h
  simp only [turn, Profiler.call, if_true]
  split_ifs <;> first | rfl | simp_all

theorem turns_on : ∀ (ts : List (List A × List A)) {s : Profiler A} (_ : s.on = true) (b : Bool),
    ts.foldl (turn b) s = ⟨true, s.stats ++ ts.flatMap fun t => t.1 ++ t.2⟩
  | [], s, h, b => by
    obtain ⟨on, st⟩ := s
    obtain rfl : on = true := h
    simp
  | t :: ts, s, h, b => by
    rw [List.foldl_cons, turn_on h, turns_on ts rfl]
    simp

theorem turns_off : ∀ (ts : List (List A × List A)) {s : Profiler A} (_ : s.on = false) (b : Bool) (_ : s.stats ≠ [] ∨ b = false), ts.foldl (turn b) s = s
  | [], s, _, _, _ => rfl
  | t :: ts, s, h, b, h2 => by
    have : turn b s t = s := by
      obtain ⟨on, st⟩ := s
      obtain rfl : on = false := h
      rcases h2 with h2 | rfl
      · simp [turn, Profiler.call, h2]
      · simp [turn, Profiler.call]
    rw [List.foldl_cons, this, turns_off ts h b h2]

/-- C119: the first run of a process with `make_profile` reports everything called since the test at the end of its first step, and nothing else; runs without
`make_profile` before it make no difference. -/
theorem C119_first_partial (runs : List (List (List A × List A) × List A)) (t : List A × List A) (ts : List (List A × List A)) (final : List A) (ht : t.2 ≠ []) :
    let s := runs.foldl (fun s r => (solveProfile false s r.1 r.2).1) ⟨false, []⟩
    (solveProfile true s (t :: ts) final).2 = some (some (t.2 ++ (ts.flatMap fun t => t.1 ++ t.2) ++ final)) := by
  intro s
  have hs : s = ⟨false, []⟩ := by
    have : ∀ runs : List (List (List A × List A) × List A), runs.foldl (fun s r => (solveProfile false s r.1 r.2).1) ⟨false, []⟩ = (⟨false, []⟩ : Profiler A) := by
      intro runs
      induction runs with
      | nil => rfl
      | cons r runs ih =>
        rw [List.foldl_cons, solveProfile, turns_off r.1 rfl false (Or.inr rfl)]
        exact ih
    exact this runs
  rw [hs, solveProfile, List.foldl_cons]
  have h1 : turn true ⟨false, []⟩ t = (⟨true, t.2⟩ : Profiler A) := by simp [turn, Profiler.call]
  rw [h1, turns_on ts rfl]
  simp [Profiler.call, ht]

/-- C119: after a run that was profiled, all later runs of the process report the profile of that run, whatever they do. -/
theorem C119_stale (s : Profiler A) (turns : List (List A × List A)) (final : List A) (l : List A) (h : (solveProfile true s turns final).2 = some (some l))
    (later : List (List (List A × List A) × List A)) (turns' : List (List A × List A)) (final' : List A) :
    (solveProfile true (later.foldl (fun s r => (solveProfile true s r.1 r.2).1) (solveProfile true s turns final).1) turns' final').2 = some (some l) := by
  have h1 : (solveProfile true s turns final).1 = ⟨false, l⟩ ∧ l ≠ [] := by
    simp only [solveProfile, if_true] at h ⊢
    split_ifs at h with he
    simp only [Option.some.injEq] at h
    rw [h] at he ⊢
    exact ⟨rfl, by simpa using he⟩
  have h2 : ∀ ts f, solveProfile true ⟨false, l⟩ ts f = ((⟨false, l⟩ : Profiler A), some (some l)) := fun ts f => by
    rw [solveProfile, turns_off ts rfl true (Or.inl h1.2)]
    simp [Profiler.call, h1.2]
  rw [h1.1]
  have h3 : later.foldl (fun s r => (solveProfile true s r.1 r.2).1) (⟨false, l⟩ : Profiler A) = ⟨false, l⟩ := by
    induction later with
    | nil => rfl
    | cons r later ih => rw [List.foldl_cons, h2]; exact ih
  rw [h3, h2]

/-- C119 is false for the second run of a process. -/
theorem C119_second_false : ¬ ∀ (turns turns' : List (List ℕ × List ℕ)) (final final' : List ℕ), (∀ t ∈ turns, t.2 ≠ []) → (∀ t ∈ turns', t.2 ≠ []) → turns ≠ [] →
    turns' ≠ [] → ∃ l, (solveProfile true (solveProfile true ⟨false, []⟩ turns final).1 turns' final').2 = some (some l) ∧
      ∀ x ∈ l, (∃ t ∈ turns', x ∈ t.1 ++ t.2) ∨ x ∈ final' := by
  intro h
  obtain ⟨l, hl, h2⟩ := h [([1], [2])] [([3], [4])] [5] [6] (by simp) (by simp) (by simp) (by simp)
  have hs := C119_stale (⟨false, []⟩ : Profiler ℕ) [([1], [2])] [5] [2, 5] (by decide) [] [([3], [4])] [6]
  obtain rfl : [2, 5] = l := by simpa using hs.symm.trans hl
  exact absurd (h2 2 (by simp)) (by simp)

/-- C119 is false for a run without steps: making the profile fails, after all the work and before `regression_test` and the closing of the files. -/
theorem C119_empty_false (final : List A) : (solveProfile true ⟨false, []⟩ [] final).2 = none := rfl

/-- Two runs of two steps each: the second is not profiled. -/
example : (solveProfile true ⟨false, []⟩ [(["RK4"], ["end_of_tstep"]), (["RK4"], ["end_of_tstep"])] ["final"]).2 =
      some (some ["end_of_tstep", "RK4", "end_of_tstep", "final"]) ∧
    (solveProfile true (solveProfile true ⟨false, []⟩ [(["RK4"], ["end_of_tstep"]), (["RK4"], ["end_of_tstep"])] ["final"]).1
      [(["AB2"], ["end_of_tstep"])] ["final"]).2 = some (some ["end_of_tstep", "RK4", "end_of_tstep", "final"]) := by decide

end

end SpectralDNS.Profile

import Verif.Model.Utilities
import Mathlib.Tactic.Linarith
import Mathlib.Tactic.NormNum

/-!
# C51: the timings reported at the end of a run
-/

namespace SpectralDNS.Utilities

/-- Durations of the steps that end at the listed times, the first of which starts at `now`. -/
def durations : ℝ → List ℝ → List ℝ
  | _, [] => []
  | now, c :: cs => (c - now) :: durations c cs

theorem durations_sum (now : ℝ) (cs : List ℝ) : (durations now cs).sum = cs.getLast?.getD now - now := by
  induction cs generalizing now with
  | nil => simp [durations]
  | cons c cs ih =>
    rw [durations, List.sum_cons, ih]
    rcases cs with _ | ⟨c', cs⟩
    · simp
    · simp only [List.getLast?_cons_cons]
      rw [List.getLast?_eq_some_getLast (by simp)]
      simp

theorem Timer.foldl_spec (tm : Timer) (cs : List ℝ) :
    let e := cs.foldl Timer.call tm
    e.fastest = (durations tm.t0 cs).foldl (fun m d => min d m) tm.fastest ∧
      e.slowest = (durations tm.t0 cs).foldl (fun m d => max d m) tm.slowest ∧ e.tic = tm.tic ∧
      e.t0 = cs.getLast?.getD tm.t0 := by
  induction cs generalizing tm with
  | nil => simp [durations]
  | cons c cs ih =>
    have h := ih (tm.call c)
    refine ⟨h.1, h.2.1, h.2.2.1, h.2.2.2.trans ?_⟩
    rcases cs with _ | ⟨c', cs⟩
    · simp [Timer.call]
    · simp only [List.getLast?_cons_cons]
      rw [List.getLast?_eq_some_getLast (by simp)]
      simp

theorem foldl_min_le (l : List ℝ) (m : ℝ) : l.foldl (fun m d => min d m) m ≤ m ∧ ∀ d ∈ l, l.foldl (fun m d => min d m) m ≤ d := by
  induction l generalizing m with
  | nil => simp
  | cons a l ih =>
    have h := ih (min a m)
    refine ⟨h.1.trans (min_le_right _ _), fun d hd => ?_⟩
    rcases List.mem_cons.1 hd with rfl | hd
    · exact h.1.trans (min_le_left _ _)
    · exact h.2 d hd

theorem foldl_min_mem (l : List ℝ) (m : ℝ) : l.foldl (fun m d => min d m) m = m ∨ l.foldl (fun m d => min d m) m ∈ l := by
  induction l generalizing m with
  | nil => simp
  | cons a l ih =>
    rcases ih (min a m) with h | h
    · rcases min_choice a m with h' | h'
      · right; simp only [List.foldl_cons]; rw [h, h']; simp
      · left; simp only [List.foldl_cons]; rw [h, h']
    · right; exact List.mem_cons_of_mem _ h

theorem le_foldl_max (l : List ℝ) (m : ℝ) : m ≤ l.foldl (fun m d => max d m) m ∧ ∀ d ∈ l, d ≤ l.foldl (fun m d => max d m) m := by
  induction l generalizing m with
  | nil => simp
  | cons a l ih =>
    have h := ih (max a m)
    refine ⟨(le_max_right _ _).trans h.1, fun d hd => ?_⟩
    rcases List.mem_cons.1 hd with rfl | hd
    · exact (le_max_left _ _).trans h.1
    · exact h.2 d hd

theorem foldl_max_mem (l : List ℝ) (m : ℝ) : l.foldl (fun m d => max d m) m = m ∨ l.foldl (fun m d => max d m) m ∈ l := by
  induction l generalizing m with
  | nil => simp
  | cons a l ih =>
    rcases ih (max a m) with h | h
    · rcases max_choice a m with h' | h'
      · right; simp only [List.foldl_cons]; rw [h, h']; simp
      · left; simp only [List.foldl_cons]; rw [h, h']
    · right; exact List.mem_cons_of_mem _ h

/-- **C51.** Every sampled step lies between the fastest and the slowest recorded. -/
theorem C51_bounds (now : ℝ) (clock : List ℝ) (d : ℝ) (hd : d ∈ durations now clock) :
    (Timer.run now clock).fastest ≤ d ∧ d ≤ (Timer.run now clock).slowest := by
  have h := Timer.foldl_spec (Timer.init now) clock
  unfold Timer.run
  rw [h.1, h.2.1]
  exact ⟨(foldl_min_le _ _).2 d hd, (le_foldl_max _ _).2 d hd⟩

/-- **C51.** When the clock does not run backwards and no step takes `1e8` seconds, both records are durations of actual steps. -/
theorem C51_attained (now : ℝ) (clock : List ℝ) (hne : clock ≠ []) (h0 : ∀ d ∈ durations now clock, 0 ≤ d ∧ d ≤ 1e8) :
    (Timer.run now clock).fastest ∈ durations now clock ∧ (Timer.run now clock).slowest ∈ durations now clock := by
  have h := Timer.foldl_spec (Timer.init now) clock
  obtain ⟨c, cs, rfl⟩ := List.exists_cons_of_ne_nil hne
  have hd : c - now ∈ durations now (c :: cs) := by simp [durations]
  have hb := C51_bounds now (c :: cs) _ hd
  constructor
  · rcases foldl_min_mem (durations now (c :: cs)) 1e8 with h' | h'
    · have e : (Timer.run now (c :: cs)).fastest = 1e8 := h.1.trans h'
      have : c - now = 1e8 := le_antisymm (h0 _ hd).2 (e ▸ hb.1)
      rw [e, ← this]; exact hd
    · have e : (Timer.run now (c :: cs)).fastest = _ := h.1
      rw [e]; exact h'
  · rcases foldl_max_mem (durations now (c :: cs)) 0 with h' | h'
    · have e : (Timer.run now (c :: cs)).slowest = 0 := h.2.1.trans h'
      have : c - now = 0 := le_antisymm (e ▸ hb.2) (h0 _ hd).1
      rw [e, ← this]; exact hd
    · have e : (Timer.run now (c :: cs)).slowest = _ := h.2.1
      rw [e]; exact h'

/-- **C51.** The durations add up to the time from the creation of the timer to the last call. -/
theorem C51_elapsed (now : ℝ) (clock : List ℝ) :
    (durations now clock).sum = (Timer.run now clock).t0 - (Timer.run now clock).tic ∧ (Timer.run now clock).tic = now ∧
      (Timer.run now clock).t0 = clock.getLast?.getD now := by
  have h := Timer.foldl_spec (Timer.init now) clock
  have ht : (Timer.run now clock).tic = now := h.2.2.1
  have h0 : (Timer.run now clock).t0 = clock.getLast?.getD now := h.2.2.2
  rw [ht, h0]
  exact ⟨durations_sum now clock, rfl, rfl⟩

/-- **C51.** The pairs reported after a run on any number of ranks: the first of the fastest and the second of the slowest bound
every step of every rank, each of the four numbers is the record of some rank, and the inner ones bound the ranks' records. -/
theorem C51_ranks {n : ℕ} (now : Fin (n + 1) → ℝ) (clock : Fin (n + 1) → List ℝ) :
    let tm := fun r => Timer.run (now r) (clock r)
    (∀ r, ∀ d ∈ durations (now r) (clock r), (Timer.final tm).1.1 ≤ d ∧ d ≤ (Timer.final tm).2.2) ∧
      (∀ r, (Timer.final tm).1.2 ≤ (tm r).slowest ∧ (tm r).fastest ≤ (Timer.final tm).2.1) ∧
      (∃ r, (Timer.final tm).1.1 = (tm r).fastest) ∧ (∃ r, (Timer.final tm).1.2 = (tm r).slowest) ∧
      (∃ r, (Timer.final tm).2.1 = (tm r).fastest) ∧ (∃ r, (Timer.final tm).2.2 = (tm r).slowest) := by
  intro tm
  refine ⟨fun r d hd => ?_, fun r => ?_, ?_, ?_, ?_, ?_⟩
  · have h := C51_bounds _ _ d hd
    exact ⟨(Finset.inf'_le (fun r => (tm r).fastest) (Finset.mem_univ r)).trans h.1,
      h.2.trans (Finset.le_sup' (fun r => (tm r).slowest) (Finset.mem_univ r))⟩
  · exact ⟨Finset.inf'_le (fun r => (tm r).slowest) (Finset.mem_univ r),
      Finset.le_sup' (fun r => (tm r).fastest) (Finset.mem_univ r)⟩
  · obtain ⟨r, _, h⟩ := Finset.exists_mem_eq_inf' Finset.univ_nonempty fun r => (tm r).fastest
    exact ⟨r, h⟩
  · obtain ⟨r, _, h⟩ := Finset.exists_mem_eq_inf' Finset.univ_nonempty fun r => (tm r).slowest
    exact ⟨r, h⟩
  · obtain ⟨r, _, h⟩ := Finset.exists_mem_eq_sup' Finset.univ_nonempty fun r => (tm r).fastest
    exact ⟨r, h⟩
  · obtain ⟨r, _, h⟩ := Finset.exists_mem_eq_sup' Finset.univ_nonempty fun r => (tm r).slowest
    exact ⟨r, h⟩

/-- Three steps of 2, 1 and 4 seconds. -/
example : durations 10 [12, 13, 17] = [2, 1, 4] ∧ (Timer.run 10 [12, 13, 17]).fastest = 1 ∧ (Timer.run 10 [12, 13, 17]).slowest = 4 := by
  norm_num [durations, Timer.run, Timer.call, Timer.init]

end SpectralDNS.Utilities

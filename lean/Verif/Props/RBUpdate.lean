import Verif.Model.RBDemo
import Verif.Props.Stats

/-!
# C91: the samples and the statistics of demo/RayleighBenard.py
-/

namespace SpectralDNS.RBDemo

open Utilities

/-! ## Specification -/

/-- The steps `t0+1, ..., t0+n`. -/
def steps (t0 : ℤ) : ℕ → List ℤ
  | 0 => []
  | n + 1 => steps t0 n ++ [t0 + (n + 1)]

/-- The steps after which a sample is due. -/
def due (d t0 : ℤ) (n : ℕ) : List ℤ := (steps t0 n).filter fun t => decide (d ∣ t)

/-! ## One call -/

variable {α : Type}

theorem pyMod_ok {a b : ℤ} (hb : b ≠ 0) : pyMod a b = .ok (a.fmod b) := if_neg hb

theorem fmod_zero_iff (a b : ℤ) : a.fmod b = 0 ↔ b ∣ a := (Int.dvd_iff_fmod_eq_zero ..).symm

/-- Whether `update` transforms the coefficients. -/
def refreshes (p : UpdateParams) (t : ℤ) : Prop :=
  p.compute_energy ∣ t ∨ ¬ p.sample_stats ∣ t ∨ p.plot_result ∣ t ∧ 0 < p.plot_result

instance (p : UpdateParams) (t : ℤ) : Decidable (refreshes p t) := by unfold refreshes; infer_instance

theorem refreshes_energy {p : UpdateParams} {t : ℤ} (h : p.compute_energy ∣ t) : refreshes p t := Or.inl h

theorem refreshes_off {p : UpdateParams} {t : ℤ} (h : ¬ p.sample_stats ∣ t) : refreshes p t := Or.inr (Or.inl h)

/-- All of `update` when no divisor is zero. -/
theorem update_eq (p : UpdateParams) (hc : p.compute_energy ≠ 0) (hs : p.sample_stats ≠ 0) (hp : p.plot_result ≠ 0) (bad : α → Bool) (t : ℤ) (cur : α)
    (s : DemoSt α) :
    let held := if refreshes p t then cur else s.held
    let figure := decide (t = 1 ∧ p.root = true ∧ 0 < p.plot_result) || s.figure
    update p bad t cur s =
      if p.plot_result ∣ t ∧ p.root = true ∧ 0 < p.plot_result ∧ figure = false then .error .noFigure
      else if p.compute_energy ∣ t ∧ bad held = true then .error .diverging
      else .ok ⟨held, figure, if p.sample_stats ∣ t then s.samples ++ [(t, held)] else s.samples⟩ := by
  intro held figure
  unfold update
  simp only [pyMod_ok hc, pyMod_ok hs, pyMod_ok hp, fmod_zero_iff, bind, Except.bind, pure, Except.pure, ne_eq]
  rcases eq_or_ne t 1 with rfl | h5
  · by_cases h1 : p.compute_energy ∣ 1 <;> by_cases h2 : p.sample_stats ∣ 1 <;> by_cases h3 : p.plot_result ∣ 1 <;>
      by_cases h4 : 0 < p.plot_result <;> by_cases h6 : p.root = true <;> by_cases h7 : s.figure = true <;>
      simp [held, figure, refreshes, h1, h2, h3, h4, h6, h7, throw, throwThe, MonadExceptOf.throw] <;> split_ifs <;> simp_all
  · by_cases h1 : p.compute_energy ∣ t <;> by_cases h2 : p.sample_stats ∣ t <;> by_cases h3 : p.plot_result ∣ t <;>
      by_cases h4 : 0 < p.plot_result <;> by_cases h6 : p.root = true <;> by_cases h7 : s.figure = true <;>
      simp [held, figure, refreshes, h1, h2, h3, h4, h5, h6, h7, throw, throwThe, MonadExceptOf.throw] <;> split_ifs <;> simp_all

/-- C91: a divisor which is zero ends the program at the first call: `plot_result = 0` does not switch plotting off (a negative number does). -/
theorem C91_zero_divisor (p : UpdateParams) (h : p.compute_energy = 0 ∨ p.plot_result = 0) (bad : α → Bool) (t : ℤ) (cur : α) (s : DemoSt α) :
    update p bad t cur s = .error .zeroDivision := by
  unfold update
  rcases h with h | h
  · simp [pyMod, h, bind, Except.bind]
  · by_cases h1 : p.compute_energy = 0
    · simp [pyMod, h1, bind, Except.bind]
    · by_cases h2 : p.sample_stats = 0 <;> by_cases h3 : t.fmod p.compute_energy = 0 <;> by_cases h4 : t.fmod p.sample_stats = 0 <;>
        simp [pyMod, h, h1, h2, h3, h4, bind, Except.bind, pure, Except.pure]

theorem update_ne_zero (p : UpdateParams) (bad : α → Bool) (t : ℤ) (cur : α) (s s' : DemoSt α) (h : update p bad t cur s = .ok s') :
    p.compute_energy ≠ 0 ∧ p.sample_stats ≠ 0 ∧ p.plot_result ≠ 0 := by
  refine ⟨fun h0 => ?_, fun h0 => ?_, fun h0 => ?_⟩
  · rw [C91_zero_divisor p (Or.inl h0)] at h; exact absurd h (by simp)
  · by_cases hc : p.compute_energy = 0
    · rw [C91_zero_divisor p (Or.inl hc)] at h; exact absurd h (by simp)
    · by_cases hp : p.plot_result = 0
      · rw [C91_zero_divisor p (Or.inr hp)] at h; exact absurd h (by simp)
      · revert h
        unfold update
        simp only [pyMod, h0, hc, hp, bind, Except.bind, pure, Except.pure, if_true, if_false]
        repeat' (first | (intro h; cases h; done) | split)
  · rw [C91_zero_divisor p (Or.inr h0)] at h; exact absurd h (by simp)

/-! ## Runs -/

theorem run_succ (p : UpdateParams) (bad : α → Bool) (write : ℤ → Bool) (field : ℤ → α) (t0 : ℤ) (s s' : DemoSt α) (n : ℕ)
    (h : runFrom p bad write field t0 s (n + 1) = .ok s') : ∃ s1 s2, runFrom p bad write field t0 s n = .ok s1 ∧
      update p bad (t0 + (n + 1)) (field (t0 + (n + 1))) s1 = .ok s2 ∧
      s' = if write (t0 + (n + 1)) then { s2 with held := field (t0 + (n + 1)) } else s2 := by
  simp only [runFrom, pass, bind, Except.bind, pure, Except.pure] at h
  rcases h1 : runFrom p bad write field t0 s n with e | s1
  · rw [h1] at h; exact absurd h (by simp)
  · rw [h1] at h
    simp only at h
    rcases h2 : update p bad (t0 + (n + 1)) (field (t0 + (n + 1))) s1 with e | s2
    · rw [h2] at h; exact absurd h (by simp)
    · rw [h2] at h
      simp only [Except.ok.injEq] at h
      exact ⟨s1, s2, rfl, h2, h.symm⟩

/-- What a successful call does. -/
theorem update_ok (p : UpdateParams) (bad : α → Bool) (t : ℤ) (cur : α) (s s' : DemoSt α) (h : update p bad t cur s = .ok s') :
    s'.held = (if refreshes p t then cur else s.held) ∧ s'.figure = (decide (t = 1 ∧ p.root = true ∧ 0 < p.plot_result) || s.figure) ∧
      s'.samples = (if p.sample_stats ∣ t then s.samples ++ [(t, s'.held)] else s.samples) ∧
      (p.compute_energy ∣ t → bad cur = false) ∧ (p.plot_result ∣ t → p.root = true → 0 < p.plot_result → s'.figure = true) := by
  obtain ⟨hc, hs, hp⟩ := update_ne_zero p bad t cur s s' h
  have e := update_eq p hc hs hp bad t cur s
  simp only at e
  rw [e] at h
  by_cases h1 : p.plot_result ∣ t ∧ p.root = true ∧ 0 < p.plot_result ∧ (decide (t = 1 ∧ p.root = true ∧ 0 < p.plot_result) || s.figure) = false
  · rw [if_pos h1] at h; exact absurd h (by simp)
  rw [if_neg h1] at h
  by_cases h2 : p.compute_energy ∣ t ∧ bad (if refreshes p t then cur else s.held) = true
  · rw [if_pos h2] at h; exact absurd h (by simp)
  rw [if_neg h2] at h
  cases h
  refine ⟨rfl, rfl, rfl, fun hd => ?_, fun ha hb hc => ?_⟩
  · by_contra hn
    exact h2 ⟨hd, by rw [if_pos (refreshes_energy hd)]; simpa using hn⟩
  · by_contra hn
    exact h1 ⟨ha, hb, hc, by simpa using hn⟩

/-- What the sample of step `t` holds, the run having begun after step `t0` with the arrays `held0`. -/
def sampled (p : UpdateParams) (field : ℤ → α) (held0 : α) (t0 t : ℤ) : α :=
  if p.compute_energy ∣ t ∨ p.plot_result ∣ t ∧ 0 < p.plot_result then field t else if t = t0 + 1 then held0 else field (t - 1)

theorem mem_steps (t0 : ℤ) (n : ℕ) (t : ℤ) : t ∈ steps t0 n ↔ t0 < t ∧ t ≤ t0 + n := by
  induction n with
  | zero => simp [steps]
  | succ n ih => simp only [steps, List.mem_append, ih, List.mem_singleton, Nat.cast_succ]; omega

theorem due_succ (d t0 : ℤ) (n : ℕ) : due d t0 (n + 1) = due d t0 n ++ if d ∣ t0 + (n + 1) then [t0 + (n + 1)] else [] := by
  simp only [due, steps, List.filter_append, List.filter_cons, List.filter_nil, decide_eq_true_eq]

theorem run_held (p : UpdateParams) (bad : α → Bool) (write : ℤ → Bool) (field : ℤ → α) (t0 : ℤ) (s : DemoSt α) (n : ℕ) (s' : DemoSt α)
    (h : runFrom p bad write field t0 s (n + 1) = .ok s') (hd : ¬ p.sample_stats ∣ t0 + (n + 1)) : s'.held = field (t0 + (n + 1)) := by
  obtain ⟨s1, s2, -, h2, rfl⟩ := run_succ p bad write field t0 s s' n h
  split_ifs
  · rfl
  · rw [(update_ok p bad _ _ s1 s2 h2).1, if_pos (refreshes_off hd)]

/-- C91, what the samples are: unless every step is sampled, the sample of a step is the field of that step if the energy is computed or the plots are drawn at it,
and the field of the step before otherwise. -/
theorem C91_samples_exact (p : UpdateParams) (h1 : p.sample_stats ≠ 1) (h2 : p.sample_stats ≠ -1) (bad : α → Bool) (write : ℤ → Bool) (field : ℤ → α)
    (t0 : ℤ) (s : DemoSt α) (n : ℕ) (s' : DemoSt α) (h : runFrom p bad write field t0 s n = .ok s') :
    s'.samples = s.samples ++ (due p.sample_stats t0 n).map fun t => (t, sampled p field s.held t0 t) := by
  induction n generalizing s' with
  | zero =>
    simp only [runFrom, pure, Except.pure, Except.ok.injEq] at h
    simp [due, steps, h]
  | succ n ih =>
    obtain ⟨s1, s2, hr, hu, rfl⟩ := run_succ p bad write field t0 s s' n h
    have hb := ih s1 hr
    obtain ⟨u1, -, u3, -⟩ := update_ok p bad _ _ s1 s2 hu
    have e : (if write (t0 + (n + 1)) then { s2 with held := field (t0 + (n + 1)) } else s2).samples = s2.samples := by split_ifs <;> rfl
    rw [e, u3, due_succ]
    by_cases hd : p.sample_stats ∣ t0 + (n + 1)
    · rw [if_pos hd, if_pos hd, List.map_append, ← List.append_assoc, ← hb]
      congr 2
      rw [u1]
      have hs1 : s1.held = if t0 + (n + 1 : ℤ) = t0 + 1 then s.held else field (t0 + (n + 1) - 1) := by
        cases n with
        | zero =>
          simp only [runFrom, pure, Except.pure, Except.ok.injEq] at hr
          simp [hr]
        | succ n =>
          rw [if_neg (by push_cast; omega)]
          have hnd : ¬ p.sample_stats ∣ t0 + (n + 1) := fun hdd => by
            have h3 : p.sample_stats ∣ 1 := by
              have := (Int.dvd_sub hd hdd)
              push_cast at this
              have e1 : t0 + ((n : ℤ) + 1 + 1) - (t0 + ((n : ℤ) + 1)) = 1 := by ring
              rwa [e1] at this
            rcases Int.isUnit_iff.1 (isUnit_of_dvd_one h3) with h | h
            · exact h1 h
            · exact h2 h
          rw [run_held p bad write field t0 s n s1 hr hnd]
          congr 1
          push_cast
          ring
      show (_, _) = (_, sampled p field s.held t0 _)
      unfold sampled refreshes
      rw [hs1]
      simp only [hd, not_true_eq_false, false_or]
    · rw [if_neg hd, if_neg hd, List.append_nil, hb]

/-- C91, provided the energy is computed at every sampled step: the samples are the fields of the steps at which they are due, and nothing else.
Missing: `compute_energy` and `sample_stats` are independent parameters, see `C91_samples_false`. -/
theorem C91_samples_partial (p : UpdateParams) (hdiv : p.compute_energy ∣ p.sample_stats) (bad : α → Bool) (write : ℤ → Bool) (field : ℤ → α)
    (t0 : ℤ) (s : DemoSt α) (n : ℕ) (s' : DemoSt α) (h : runFrom p bad write field t0 s n = .ok s') :
    s'.samples = s.samples ++ (due p.sample_stats t0 n).map fun t => (t, field t) := by
  induction n generalizing s' with
  | zero =>
    simp only [runFrom, pure, Except.pure, Except.ok.injEq] at h
    simp [due, steps, h]
  | succ n ih =>
    obtain ⟨s1, s2, hr, hu, rfl⟩ := run_succ p bad write field t0 s s' n h
    have hb := ih s1 hr
    obtain ⟨u1, -, u3, -⟩ := update_ok p bad _ _ s1 s2 hu
    have e : (if write (t0 + (n + 1)) then { s2 with held := field (t0 + (n + 1)) } else s2).samples = s2.samples := by split_ifs <;> rfl
    rw [e, u3, due_succ]
    by_cases hd : p.sample_stats ∣ t0 + (n + 1)
    · rw [if_pos hd, if_pos hd, List.map_append, ← List.append_assoc, ← hb, u1, if_pos (refreshes_energy (hdiv.trans hd))]
      rfl
    · rw [if_neg hd, if_neg hd, List.append_nil, hb]

/-- C91: the energies of the steps at which they are computed were below the limit, otherwise the run has been stopped. -/
theorem C91_not_diverging (p : UpdateParams) (bad : α → Bool) (write : ℤ → Bool) (field : ℤ → α) (t0 : ℤ) (s : DemoSt α) (n : ℕ) (s' : DemoSt α)
    (h : runFrom p bad write field t0 s n = .ok s') (t : ℤ) (ht : t0 < t) (htn : t ≤ t0 + n) (hd : p.compute_energy ∣ t) : bad (field t) = false := by
  induction n generalizing s' with
  | zero => simp at htn; omega
  | succ n ih =>
    obtain ⟨s1, s2, hr, hu, -⟩ := run_succ p bad write field t0 s s' n h
    by_cases hlast : t = t0 + (n + 1)
    · subst hlast
      exact (update_ok p bad _ _ s1 s2 hu).2.2.2.1 hd
    · exact ih s1 hr (by push_cast at htn; omega)

theorem run_figure (p : UpdateParams) (bad : α → Bool) (write : ℤ → Bool) (field : ℤ → α) (t0 : ℤ) (s : DemoSt α) (n : ℕ) (s' : DemoSt α)
    (h : runFrom p bad write field t0 s n = .ok s') (ht0 : 1 ≤ t0) : s'.figure = s.figure := by
  induction n generalizing s' with
  | zero => simp only [runFrom, pure, Except.pure, Except.ok.injEq] at h; rw [h]
  | succ n ih =>
    obtain ⟨s1, s2, hr, hu, rfl⟩ := run_succ p bad write field t0 s s' n h
    have e := (update_ok p bad _ _ s1 s2 hu).2.1
    have e2 : (if write (t0 + (n + 1)) then { s2 with held := field (t0 + (n + 1)) } else s2).figure = s2.figure := by split_ifs <;> rfl
    rw [e2, e, ih s1 hr]
    have : ¬ t0 + ((n : ℤ) + 1) = 1 := by omega
    simp [this]

/-- C91: a run which does not begin at step one (a restart) fails on rank 0 at the first step at which plots are due: the figures are only made at step one. -/
theorem C91_restart_plot_false (p : UpdateParams) (hroot : p.root = true) (hp : 0 < p.plot_result) (bad : α → Bool) (write : ℤ → Bool) (field : ℤ → α)
    (t0 : ℤ) (ht0 : 1 ≤ t0) (s : DemoSt α) (hs : s.figure = false) (n : ℕ) (t : ℤ) (ht : t0 < t) (htn : t ≤ t0 + n) (hd : p.plot_result ∣ t) (s' : DemoSt α) :
    runFrom p bad write field t0 s n ≠ .ok s' := by
  induction n generalizing s' with
  | zero => simp at htn; omega
  | succ n ih =>
    intro h
    obtain ⟨s1, s2, hr, hu, -⟩ := run_succ p bad write field t0 s s' n h
    by_cases hlast : t = t0 + (n + 1)
    · subst hlast
      have h1 := (update_ok p bad _ _ s1 s2 hu)
      have h2 := h1.2.2.2.2 hd hroot hp
      rw [h1.2.1, run_figure p bad write field t0 s n s1 hr ht0, hs] at h2
      have : ¬ t0 + ((n : ℤ) + 1) = 1 := by omega
      simp [this] at h2
    · exact ih (by push_cast at htn; omega) s1 hr

/-- C91: a run from step one goes through as long as no divisor is zero and the energies stay below the limit. -/
theorem C91_completes (p : UpdateParams) (hc : p.compute_energy ≠ 0) (hs : p.sample_stats ≠ 0) (hp : p.plot_result ≠ 0) (bad : α → Bool) (write : ℤ → Bool)
    (field : ℤ → α) (hbad : ∀ t, bad (field t) = false) (s : DemoSt α) (n : ℕ) : ∃ s', runFrom p bad write field 0 s n = .ok s' := by
  suffices h : ∃ s', runFrom p bad write field 0 s n = .ok s' ∧ (0 < n → p.root = true → 0 < p.plot_result → s'.figure = true) from ⟨h.choose, h.choose_spec.1⟩
  induction n with
  | zero => exact ⟨s, rfl, fun h => absurd h (lt_irrefl _)⟩
  | succ n ih =>
    obtain ⟨s1, hr, hf⟩ := ih
    have e := update_eq p hc hs hp bad (0 + (n + 1)) (field (0 + (n + 1))) s1
    simp only at e
    have hfig : p.root = true → 0 < p.plot_result → (decide ((0 : ℤ) + (n + 1) = 1 ∧ p.root = true ∧ 0 < p.plot_result) || s1.figure) = true := fun h1 h2 => by
      cases n with
      | zero => simp [h1, h2]
      | succ n => rw [hf (by omega) h1 h2]; simp
    rw [if_neg (by rintro ⟨-, a, b, c⟩; rw [hfig a b] at c; exact absurd c (by decide)), if_neg (by
      rintro ⟨a, b⟩
      rw [if_pos (refreshes_energy a), hbad] at b
      exact absurd b (by decide))] at e
    simp only [runFrom, pass, bind, Except.bind, pure, Except.pure, hr, e]
    split_ifs
    all_goals exact ⟨_, rfl, fun _ h1 h2 => hfig h1 h2⟩

/-- The property is false: with samples every five steps and energies every ten, the sample of step five is the field of step four. -/
theorem C91_samples_false : ∃ s', runFrom (α := ℤ) ⟨10, 5, 100, true⟩ (fun _ => false) (fun _ => false) id 0 ⟨0, false, []⟩ 5 = .ok s' ∧
    s'.samples = [(5, 4)] := ⟨_, rfl, rfl⟩

/-- The defaults of the demo meet `C91_samples_partial`: samples and energies every ten steps. -/
example (field : ℤ → ℝ) (s' : DemoSt ℝ) (h : runFrom ⟨10, 10, 100, true⟩ (fun e => decide (10 ^ 8 < e)) (fun t => decide (100 ∣ t)) field 0 ⟨0, false, []⟩ 25 = .ok s') :
    s'.samples = [(10, field 10), (20, field 20)] :=
  (C91_samples_partial _ (by decide) _ _ field 0 _ 25 s' h).trans rfl

/-! ## The statistics -/

section Stats

variable {J : Type*} [Fintype J]

/-- The average over samples and plane of a quantity. -/
noncomputable def averageT (q : SampleT J → ℕ → J → ℝ) (xs : List (SampleT J)) (k : ℕ) : ℝ :=
  (xs.map fun x => ∑ j, q x k j).sum / (xs.length * Fintype.card J)

/-- The file contains the averages of velocity, temperature, Reynolds stresses and squared temperature at the planes `k < K`. -/
structure HoldsT (K : ℕ) (f : StatsFileT) (xs : List (SampleT J)) : Prop where
  num : f.base.num_samples = xs.length
  U : ∀ i, ∀ k < K, f.base.U i k = averageT (fun x k j => x.U i k j) xs k
  phi : ∀ k < K, f.base.P k = averageT (fun x k j => x.phi k j) xs k
  UU : ∀ i, ∀ k < K, f.base.UU i k = averageT (fun x k j => stress i fun c => x.U c k j) xs k
  pp : ∀ k < K, f.pp k = averageT (fun x k j => x.phi k j ^ 2) xs k

/-- The sample as one of demo/MKM.py, with the temperature in place of the pressure. -/
def toSample (x : SampleT J) : Sample J := ⟨x.U, some x.phi⟩

/-- The same with the squared temperature. -/
def toSample2 (x : SampleT J) : Sample J := ⟨x.U, some fun k j => x.phi k j * x.phi k j⟩

def proj1 (s : (ℕ → StatsT) × StatsFileT) : (ℕ → Stats) × StatsFile := (fun r => (s.1 r).base, s.2.base)

def base2 (s : StatsT) : Stats := { s.base with Pmean := s.pp }

def file2 (f : StatsFileT) : StatsFile := { f.base with P := f.pp }

def proj2 (s : (ℕ → StatsT) × StatsFileT) : (ℕ → Stats) × StatsFile := (fun r => base2 (s.1 r), file2 s.2)

theorem fold1 (st : ℕ → StatsT) (N nJ : ℕ) (l : List ℕ) (f : StatsFileT) :
    (l.foldl (fun f r => (st r).write r N nJ f) f).base = l.foldl (fun f r => (st r).base.write r N nJ f) f.base := by
  induction l generalizing f with
  | nil => rfl
  | cons r l ih => rw [List.foldl_cons, List.foldl_cons, ih]; rfl

theorem fold2 (st : ℕ → StatsT) (N nJ : ℕ) (l : List ℕ) (f : StatsFileT) :
    file2 (l.foldl (fun f r => (st r).write r N nJ f) f) = l.foldl (fun f r => (base2 (st r)).write r N nJ f) (file2 f) := by
  induction l generalizing f with
  | nil => rfl
  | cons r l ih => rw [List.foldl_cons, List.foldl_cons, ih]; rfl

theorem sample1 (ranks N : ℕ) (xs : List (SampleT J)) (s : (ℕ → StatsT) × StatsFileT) :
    proj1 (sampleListT ranks N xs s) = sampleList ranks N (xs.map toSample) (proj1 s) := by
  induction xs generalizing s with
  | nil => rfl
  | cons x xs ih =>
    have e : proj1 (sampleAllT ranks N x s) = sampleAll ranks N (toSample x) (proj1 s) := by
      unfold sampleAllT sampleAll proj1
      simp only [fold1]
      rfl
    show proj1 (sampleListT ranks N xs (sampleAllT ranks N x s)) = sampleList ranks N (xs.map toSample) (sampleAll ranks N (toSample x) (proj1 s))
    rw [ih, e]

theorem sample2 (ranks N : ℕ) (xs : List (SampleT J)) (s : (ℕ → StatsT) × StatsFileT) :
    proj2 (sampleListT ranks N xs s) = sampleList ranks N (xs.map toSample2) (proj2 s) := by
  induction xs generalizing s with
  | nil => rfl
  | cons x xs ih =>
    have e : proj2 (sampleAllT ranks N x s) = sampleAll ranks N (toSample2 x) (proj2 s) := by
      unfold sampleAllT sampleAll proj2
      simp only [fold2]
      rfl
    show proj2 (sampleListT ranks N xs (sampleAllT ranks N x s)) = sampleList ranks N (xs.map toSample2) (sampleAll ranks N (toSample2 x) (proj2 s))
    rw [ih, e]

theorem holds_of_proj (K : ℕ) (f : StatsFileT) (xs : List (SampleT J)) (h1 : Holds K f.base (xs.map toSample)) (h2 : Holds K (file2 f) (xs.map toSample2)) :
    HoldsT K f xs := by
  have e : ∀ (g : SampleT J → Sample J) (q : Sample J → ℕ → J → ℝ) k, average q (xs.map g) k = averageT (fun x => q (g x)) xs k := fun g q k => by
    simp [average, averageT, total, Function.comp_def]
  refine ⟨by simpa using h1.num, fun i k hk => ?_, fun k hk => ?_, fun i k hk => ?_, fun k hk => ?_⟩
  · rw [h1.U i k hk, e]; rfl
  · rw [h1.P k hk, e]; rfl
  · rw [h1.UU i k hk, e]; rfl
  · rw [show f.pp k = _ from h2.P k hk, e]
    simp only [averageT, Sample.pressure, toSample2, pow_two]

/-- C91: after every sample the statistics file of the demo holds the averages over all samples so far, on any number of ranks. -/
theorem C91_averages {ranks N : ℕ} (hr : 0 < ranks) (xs : List (SampleT J)) (hx : xs ≠ []) (f0 : StatsFileT) :
    HoldsT (ranks * N) (sampleListT ranks N xs (fun _ => StatsT.init, f0)).2 xs := by
  refine holds_of_proj _ _ _ ?_ ?_
  · have := C53_averages (N := N) hr (xs.map toSample) (by simpa using hx) f0.base
    have e := congrArg Prod.snd (sample1 ranks N xs (fun _ => StatsT.init, f0))
    rw [show (sampleListT ranks N xs (fun _ => StatsT.init, f0)).2.base = _ from e]
    exact this
  · have := C53_averages (N := N) hr (xs.map toSample2) (by simpa using hx) (file2 f0)
    have e := congrArg Prod.snd (sample2 ranks N xs (fun _ => StatsT.init, f0))
    rw [show file2 (sampleListT ranks N xs (fun _ => StatsT.init, f0)).2 = _ from e]
    exact this

/-- C91: saving, reloading on any number of ranks which divides the planes evenly, and sampling on gives the averages over all samples. -/
theorem C91_reload {ranks N ranks' N' : ℕ} (hr : 0 < ranks) (hr' : 0 < ranks') (hN : ranks' * N' = ranks * N) (hJ : 0 < Fintype.card J)
    (xs ys : List (SampleT J)) (hx : xs ≠ []) (hy : ys ≠ []) (f0 : StatsFileT) :
    let f := (sampleListT ranks N xs (fun _ => StatsT.init, f0)).2
    HoldsT (ranks * N) (sampleListT ranks' N' ys (fun r => StatsT.fromfile f r N' (Fintype.card J), f)).2 (xs ++ ys) := by
  intro f
  refine holds_of_proj _ _ _ ?_ ?_
  · have := C53_reload hr hr' hN hJ (xs.map toSample) (ys.map toSample) (by simpa using hx) (by simpa using hy) f0.base
    have e0 : f.base = _ := congrArg Prod.snd (sample1 ranks N xs (fun _ => StatsT.init, f0))
    have e := congrArg Prod.snd (sample1 ranks' N' ys (fun r => StatsT.fromfile f r N' (Fintype.card J), f))
    rw [show (sampleListT ranks' N' ys (fun r => StatsT.fromfile f r N' (Fintype.card J), f)).2.base = _ from e, List.map_append]
    have e1 : proj1 (fun r => StatsT.fromfile f r N' (Fintype.card J), f) = (fun r => Stats.fromfile f.base r N' (Fintype.card J), f.base) := rfl
    rw [e1, e0]
    exact this
  · have := C53_reload hr hr' hN hJ (xs.map toSample2) (ys.map toSample2) (by simpa using hx) (by simpa using hy) (file2 f0)
    have e0 : file2 f = _ := congrArg Prod.snd (sample2 ranks N xs (fun _ => StatsT.init, f0))
    have e := congrArg Prod.snd (sample2 ranks' N' ys (fun r => StatsT.fromfile f r N' (Fintype.card J), f))
    rw [show file2 (sampleListT ranks' N' ys (fun r => StatsT.fromfile f r N' (Fintype.card J), f)).2 = _ from e, List.map_append]
    have e1 : proj2 (fun r => StatsT.fromfile f r N' (Fintype.card J), f) = (fun r => Stats.fromfile (file2 f) r N' (Fintype.card J), file2 f) := rfl
    rw [e1, e0]
    exact this

/-- Two samples of the temperature, 1 and 3, in a plane of one point: mean 2, mean square 5. -/
example : averageT (J := Fin 1) (fun x k j => x.phi k j) [⟨fun _ _ _ => 0, fun _ _ => 1⟩, ⟨fun _ _ _ => 0, fun _ _ => 3⟩] 0 = 2 ∧
    averageT (J := Fin 1) (fun x k j => x.phi k j ^ 2) [⟨fun _ _ _ => 0, fun _ _ => 1⟩, ⟨fun _ _ _ => 0, fun _ _ => 3⟩] 0 = 5 := by
  norm_num [averageT]

end Stats

end SpectralDNS.RBDemo

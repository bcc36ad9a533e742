import Verif.Model.Integrators
import Verif.Spec.RungeKutta
import Mathlib.Algebra.BigOperators.Intervals
import Mathlib.Tactic.Module
import Mathlib.Tactic.Linarith
import Mathlib.Tactic.NormNum

/-! Helper lemmas about the integrator model. -/

namespace SpectralDNS

variable {V : Type*} [AddCommGroup V] [Module ℝ V]

/-! ### Ring-buffer indices -/

theorem slot_inj {s i j : ℕ} {o : ℤ} (hi : i < s) (hj : j < s) (h : slot s i o = slot s j o) : i = j := by
  unfold slot at h
  have hs : (s : ℤ) ≠ 0 := by omega
  have h1 := Int.emod_nonneg ((i : ℤ) + o) hs
  have h2 := Int.emod_nonneg ((j : ℤ) + o) hs
  have h3 : ((i : ℤ) + o) % s = ((j : ℤ) + o) % s := by omega
  have h4 : ((i : ℤ) - j) % s = 0 := by
    have := Int.emod_emod_of_dvd ((i : ℤ) + o) (dvd_refl (s : ℤ))
    have h5 : (((i : ℤ) + o) - ((j : ℤ) + o)) % s = 0 := Int.emod_eq_emod_iff_emod_sub_eq_zero.1 h3
    have h6 : ((i : ℤ) + o) - ((j : ℤ) + o) = i - j := by ring
    rwa [h6] at h5
  obtain ⟨k, hk⟩ := Int.dvd_of_emod_eq_zero h4
  have hk0 : k = 0 := by
    by_contra hne
    rcases lt_or_gt_of_ne hne with h | h
    · nlinarith
    · nlinarith
  subst hk0
  omega

theorem slot_emod (s i : ℕ) (o : ℤ) : slot s i (o % s) = slot s i o := by
  unfold slot
  rw [Int.add_emod_emod]

theorem slot_last {s : ℕ} (hs : 0 < s) (o : ℤ) : slot s (s - 1) o = slot s 0 (o - 1) := by
  unfold slot
  have : ((s - 1 : ℕ) : ℤ) + o = (((0 : ℕ) : ℤ) + (o - 1)) + s * 1 := by
    have : ((s - 1 : ℕ) : ℤ) = (s : ℤ) - 1 := by omega
    rw [this]; push_cast; ring
  rw [this, Int.add_mul_emod_self_left]

/-! ### One stage -/

theorem stageAccum_fold (T : Tableau) (dt : ℝ) (o : ℤ) (i : ℕ) (hi : i < T.s) (fY : ℕ → V) (m : ℕ) (hm : m ≤ i) :
    let r := (List.range m).foldl
      (fun r j => Function.update r (slot T.s i o)
        (r (slot T.s i o) + (dt * T.A i j) • r (slot T.s j o))) fY
    r (slot T.s i o) = fY (slot T.s i o) + ∑ j ∈ Finset.range m, (dt * T.A i j) • fY (slot T.s j o) ∧
    ∀ k, k ≠ slot T.s i o → r k = fY k := by
  induction m with
  | zero => simp
  | succ m ih =>
    obtain ⟨h1, h2⟩ := ih (by omega)
    rw [List.range_succ, List.foldl_append]
    simp only [List.foldl_cons, List.foldl_nil]
    have hne : slot T.s m o ≠ slot T.s i o := fun h => by
      have := slot_inj (by omega) hi h
      omega
    refine ⟨?_, ?_⟩
    · rw [Function.update_self, h1, h2 _ hne, Finset.sum_range_succ]
      abel
    · intro k hk
      rw [Function.update_of_ne hk]
      exact h2 k hk

theorem stageAccum_self (T : Tableau) (dt : ℝ) (o : ℤ) (i : ℕ) (hi : i < T.s) (fY : ℕ → V) :
    stageAccum T dt o i fY (slot T.s i o) =
      fY (slot T.s i o) + ∑ j ∈ Finset.range i, (dt * T.A i j) • fY (slot T.s j o) :=
  (stageAccum_fold T dt o i hi fY i le_rfl).1

theorem stageAccum_of_ne (T : Tableau) (dt : ℝ) (o : ℤ) (i : ℕ) (hi : i < T.s) (fY : ℕ → V) {k : ℕ}
    (hk : k ≠ slot T.s i o) : stageAccum T dt o i fY k = fY k :=
  (stageAccum_fold T dt o i hi fY i le_rfl).2 k hk

/-- Whether stage `i` is recomputed (integrators.py:65). -/
def recomputed (fsal : Bool) (tstep i : ℕ) : Prop := fsal = false ∨ tstep = 0 ∨ i ≠ 0

theorem rkStage_eq (F : V → V → V) (f : V → V) (hF : ∀ r u, F r u = f u) (T : Tableau) (fsal : Bool) (tstep : ℕ)
    (dt : ℝ) (o : ℤ) (u0 : V) (st : (ℕ → V) × V) (i : ℕ) (hi : i < T.s) (hr : recomputed fsal tstep i) :
    (rkStage F T fsal tstep dt o u0 st i).1 (slot T.s i o) =
      f (u0 + ∑ j ∈ Finset.range i, (dt * T.A i j) • st.1 (slot T.s j o)) ∧
    ∀ k, k ≠ slot T.s i o → (rkStage F T fsal tstep dt o u0 st i).1 k = st.1 k := by
  have hc : (!fsal || (tstep == 0 || i != 0)) = true := by
    rcases hr with h | h | h
    · simp [h]
    · simp [h]
    · simp [h]
  unfold rkStage
  rw [if_pos hc]
  simp only
  refine ⟨?_, ?_⟩
  · rw [Function.update_self, hF, stageAccum_self T dt o i hi, Function.update_self]
    congr 2
    refine Finset.sum_congr rfl fun j hj => ?_
    have hj' := Finset.mem_range.1 hj
    rw [Function.update_of_ne]
    intro h
    have := slot_inj (by omega) hi h
    omega
  · intro k hk
    rw [Function.update_of_ne hk, stageAccum_of_ne T dt o i hi _ hk, Function.update_of_ne hk]

theorem stages_eq (a : ℕ → ℕ → ℝ) (f : V → V) (dt : ℝ) (u : V) (i : ℕ) :
    Spec.stages a f dt u i = f (u + ∑ j ∈ Finset.range i, (dt * a i j) • Spec.stages a f dt u j) := by
  rw [Spec.stages, Finset.sum_range]

/-- After the stage loop every slot holds the textbook stage derivative, provided stage 0 was either recomputed or
already present. -/
theorem rkStages_eq (F : V → V → V) (f : V → V) (hF : ∀ r u, F r u = f u) (T : Tableau) (fsal : Bool) (tstep : ℕ)
    (dt : ℝ) (o : ℤ) (u0 : V) (st : (ℕ → V) × V)
    (h0 : recomputed fsal tstep 0 ∨ st.1 (slot T.s 0 o) = f u0) :
    ∀ j < T.s, (rkStages F T fsal tstep dt o u0 st).1 (slot T.s j o) = Spec.stages T.A f dt u0 j := by
  have key : ∀ m ≤ T.s, ∀ j < m,
      ((List.range m).foldl (rkStage F T fsal tstep dt o u0) st).1 (slot T.s j o) = Spec.stages T.A f dt u0 j := by
    intro m
    induction m with
    | zero => intro _ j hj; omega
    | succ m ih =>
      intro hm j hj
      rw [List.range_succ, List.foldl_append]
      simp only [List.foldl_cons, List.foldl_nil]
      set st' := (List.range m).foldl (rkStage F T fsal tstep dt o u0) st with hst'
      by_cases hr : recomputed fsal tstep m
      · obtain ⟨h1, h2⟩ := rkStage_eq F f hF T fsal tstep dt o u0 st' m (by omega) hr
        by_cases hjm : j = m
        · subst hjm
          rw [h1, stages_eq]
          congr 2
          refine Finset.sum_congr rfl fun l hl => ?_
          rw [ih (by omega) l (Finset.mem_range.1 hl)]
        · rw [h2 _ (fun h => hjm (slot_inj (by omega) (by omega) h))]
          exact ih (by omega) j (by omega)
      · have hm0 : m = 0 := by
          by_contra hne
          exact hr (Or.inr (Or.inr hne))
        subst hm0
        have hj0 : j = 0 := by omega
        subst hj0
        have h0' := h0.resolve_left hr
        have hskip : rkStage F T fsal tstep dt o u0 st' 0 = st' := by
          unfold rkStage
          rw [if_neg]
          intro hc
          apply hr
          unfold recomputed
          cases fsal <;> simp_all
        rw [hskip, hst']
        simp only [List.range_zero, List.foldl_nil]
        rw [h0', stages_eq]
        simp
  intro j hj
  exact key T.s le_rfl j hj

omit [Module ℝ V] in
theorem foldl_range'_sum (g : ℕ → V) (x : V) (s : ℕ) (hs : 0 < s) :
    (List.range' 1 (s - 1)).foldl (fun r j => r + g j) (x + g 0) = x + ∑ j ∈ Finset.range s, g j := by
  have key : ∀ n, (List.range' 1 n).foldl (fun r j => r + g j) (x + g 0) = x + ∑ j ∈ Finset.range (n + 1), g j := by
    intro n
    induction n with
    | zero => simp
    | succ n ih =>
      rw [List.range'_1_concat, List.foldl_append, ih, Finset.sum_range_succ _ (n + 1)]
      simp only [List.foldl_cons, List.foldl_nil, add_comm 1 n]
      abel
  have := key (s - 1)
  rwa [Nat.sub_add_cancel hs] at this

theorem rkNew_eq (f : V → V) (T : Tableau) (hs : 0 < T.s) (dt : ℝ) (o : ℤ) (u0 : V) (fY : ℕ → V)
    (h : ∀ j < T.s, fY (slot T.s j o) = Spec.stages T.A f dt u0 j) :
    rkNew T dt o u0 fY = Spec.rkNew T.s T.A T.b f dt u0 := by
  unfold rkNew Spec.rkNew
  rw [foldl_range'_sum (fun j => (dt * T.b j) • fY (slot T.s j o)) u0 T.s hs]
  congr 1
  exact Finset.sum_congr rfl fun j hj => by rw [h j (Finset.mem_range.1 hj)]

theorem rkErr_eq (f : V → V) (T : Tableau) (hs : 0 < T.s) (dt : ℝ) (o : ℤ) (u0 : V) (fY : ℕ → V)
    (h : ∀ j < T.s, fY (slot T.s j o) = Spec.stages T.A f dt u0 j) :
    rkErr T dt o fY = Spec.rkErr T.s T.A T.b T.bhat f dt u0 := by
  unfold rkErr Spec.rkErr Spec.rkNew
  have := foldl_range'_sum (fun j => (dt * (T.b j - T.bhat j)) • fY (slot T.s j o)) 0 T.s hs
  rw [zero_add, zero_add] at this
  rw [this, add_sub_add_left_eq_sub, ← Finset.sum_sub_distrib]
  refine Finset.sum_congr rfl fun j hj => ?_
  rw [h j (Finset.mem_range.1 hj)]
  module

/-- First-same-as-last: with `A[s-1, :] = b` and `b[s-1] = 0`, the last stage is `f` of the new solution. -/
theorem last_stage_eq (f : V → V) (T : Tableau) (hs : 0 < T.s) (hA : ∀ j, j < T.s - 1 → T.A (T.s - 1) j = T.b j)
    (hb : T.b (T.s - 1) = 0) (dt : ℝ) (u0 : V) :
    Spec.stages T.A f dt u0 (T.s - 1) = f (Spec.rkNew T.s T.A T.b f dt u0) := by
  rw [stages_eq]
  unfold Spec.rkNew
  congr 2
  obtain ⟨n, hn⟩ : ∃ n, T.s = n + 1 := ⟨T.s - 1, by omega⟩
  rw [hn] at hA hb ⊢
  rw [Finset.sum_range_succ]
  simp only [Nat.add_sub_cancel] at hA hb ⊢
  rw [hb]
  simp only [mul_zero, zero_smul, add_zero]
  exact Finset.sum_congr rfl fun j hj => by rw [hA j (Finset.mem_range.1 hj)]

end SpectralDNS

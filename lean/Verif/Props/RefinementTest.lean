import Verif.Model.RefinementTest
import Mathlib.Analysis.SpecialFunctions.Pow.Real

/-!
# C131: the observed order of demo/refinement_test.py
-/

namespace SpectralDNS.Refinement

open Real

theorem fromEnd_append_one (l : List ℝ) (a : ℝ) : fromEnd (l ++ [a]) 1 = a := by
  simp [fromEnd]

theorem fromEnd_append_two (l : List ℝ) (a b : ℝ) : fromEnd (l ++ [a] ++ [b]) 2 = a := by
  simp [fromEnd, List.getD_eq_getElem?_getD]

theorem loop_lists (runs : List (ℝ × ℝ)) : (runs.zipIdx.foldl step ⟨[], [], []⟩).error = runs.map Prod.fst ∧
    (runs.zipIdx.foldl step ⟨[], [], []⟩).h = runs.map Prod.snd ∧ (table runs).length = runs.length := by
  induction runs using List.reverseRecOn with
  | nil => simp [table]
  | append_singleton l a ih =>
    obtain ⟨h1, h2, h3⟩ := ih
    rw [table] at h3 ⊢
    rw [List.zipIdx_append, List.foldl_append]
    simp only [List.zipIdx_cons, List.zipIdx_nil, List.foldl_cons, List.foldl_nil, step, h1, h2, List.map_append, List.map_cons, List.map_nil, zero_add, true_and]
    rcases Nat.eq_zero_or_pos l.length with h | h
    · simp [h, h3]
    · simp [h.ne', h, h3]

/-- One more run adds one row and changes none. -/
theorem table_append (l : List (ℝ × ℝ)) (a b : ℝ × ℝ) :
    table (l ++ [a] ++ [b]) = table (l ++ [a]) ++ [(b.1, b.2, log (b.1 / a.1) / log (b.2 / a.2))] := by
  obtain ⟨h1, h2, -⟩ := loop_lists (l ++ [a])
  rw [table, List.zipIdx_append, List.foldl_append]
  simp only [List.zipIdx_cons, List.zipIdx_nil, List.foldl_cons, List.foldl_nil, step, h1, h2, zero_add]
  rw [if_pos (by simp), if_neg (by simp)]
  simp only [List.map_append, List.map_cons, List.map_nil, fromEnd_append_one, fromEnd_append_two]
  rfl

theorem table_row (runs : List (ℝ × ℝ)) (i : ℕ) (a b : ℝ × ℝ) (ha : runs[i]? = some a) (hb : runs[i + 1]? = some b) :
    (table runs)[i + 1]? = some (b.1, b.2, log (b.1 / a.1) / log (b.2 / a.2)) := by
  induction runs using List.reverseRecOn with
  | nil => simp at ha
  | append_singleton l c ih =>
    rcases List.eq_nil_or_concat l with rfl | ⟨l, d, rfl⟩
    · simp at hb
    · rw [List.concat_eq_append] at *
      have hl := (loop_lists (l ++ [d])).2.2
      rw [table_append]
      by_cases h : i + 1 < (l ++ [d]).length
      · rw [List.getElem?_append_left (by omega)] at ha hb
        rw [List.getElem?_append_left (by omega)]
        exact ih ha hb
      · have h2 : i + 1 < (l ++ [d] ++ [c]).length := (List.getElem?_eq_some_iff.1 hb).1
        have h3 : i = l.length := by simp at h h2; omega
        subst h3
        have e1 : (l ++ [d] ++ [c])[l.length]? = some d := by simp
        have e2 : (l ++ [d] ++ [c])[l.length + 1]? = some c := by simp
        rw [ha, Option.some_inj] at e1
        rw [hb, Option.some_inj] at e2
        subst e1 e2
        rw [List.getElem?_append_right (by rw [hl]; simp)]
        simp [hl]

/-- C131: there is one row for each run; the first has the order 0. -/
theorem C131_rows (runs : List (ℝ × ℝ)) : (table runs).length = runs.length ∧ ∀ a, runs.head? = some a → (table runs).head? = some (a.1, a.2, 0) := by
  refine ⟨(loop_lists runs).2.2, fun a ha => ?_⟩
  induction runs using List.reverseRecOn with
  | nil => simp at ha
  | append_singleton l c ih =>
    rcases List.eq_nil_or_concat l with rfl | ⟨l, d, rfl⟩
    · simp only [List.nil_append, List.head?_cons, Option.some_inj] at ha
      subst ha
      simp [table, step, fromEnd]
    · rw [List.concat_eq_append] at *
      have hl := (loop_lists (l ++ [d])).2.2
      have hne : table (l ++ [d]) ≠ [] := by
        rw [← List.length_pos_iff_ne_nil, hl]
        simp
      rw [List.head?_append_of_ne_nil _ (by simp)] at ha
      rw [table_append, List.head?_append_of_ne_nil _ hne]
      exact ih ha

/-- C131: if the errors are `C h^p` up to factors between `exp (-δ)` and `exp δ`, the order printed for a run after the first is `p` up to
`2 δ / |log (h / h')|`, where `h'` is the step of the run before. -/
theorem C131_rate (runs : List (ℝ × ℝ)) (C p δ : ℝ) (hC : 0 < C) (i : ℕ) (a b : ℝ × ℝ) (ha : runs[i]? = some a) (hb : runs[i + 1]? = some b)
    (ha0 : 0 < a.2) (hb0 : 0 < b.2) (hne : a.2 ≠ b.2)
    (hea : C * a.2 ^ p * exp (-δ) ≤ a.1 ∧ a.1 ≤ C * a.2 ^ p * exp δ) (heb : C * b.2 ^ p * exp (-δ) ≤ b.1 ∧ b.1 ≤ C * b.2 ^ p * exp δ) :
    ∃ r, (table runs)[i + 1]? = some (b.1, b.2, r) ∧ |r - p| ≤ 2 * δ / |log (b.2 / a.2)| := by
  refine ⟨_, table_row runs i a b ha hb, ?_⟩
  have key : ∀ x : ℝ × ℝ, 0 < x.2 → C * x.2 ^ p * exp (-δ) ≤ x.1 → x.1 ≤ C * x.2 ^ p * exp δ →
      0 < x.1 ∧ log C + p * log x.2 - δ ≤ log x.1 ∧ log x.1 ≤ log C + p * log x.2 + δ := fun x hx h1 h2 => by
    have hp := rpow_pos_of_pos hx p
    have hl : ∀ d, log (C * x.2 ^ p * exp d) = log C + p * log x.2 + d := fun d => by
      rw [log_mul (by positivity) (by positivity), log_mul hC.ne' hp.ne', log_rpow hx, log_exp]
    have h0 : 0 < x.1 := lt_of_lt_of_le (by positivity) h1
    have l1 := log_le_log (by positivity) h1
    have l2 := log_le_log h0 h2
    rw [hl] at l1 l2
    exact ⟨h0, by linarith, l2⟩
  obtain ⟨pa, a1, a2⟩ := key a ha0 hea.1 hea.2
  obtain ⟨pb, b1, b2⟩ := key b hb0 heb.1 heb.2
  have hL : log (b.2 / a.2) ≠ 0 := by
    rw [log_div hb0.ne' ha0.ne', sub_ne_zero]
    exact fun h => hne (log_injOn_pos (Set.mem_Ioi.2 ha0) (Set.mem_Ioi.2 hb0) h.symm)
  have e : log (b.1 / a.1) / log (b.2 / a.2) - p = (log b.1 - log a.1 - p * (log b.2 - log a.2)) / log (b.2 / a.2) := by
    rw [← log_div hb0.ne' ha0.ne', log_div pb.ne' pa.ne']
    field_simp
  rw [e, abs_div]
  refine div_le_div_of_nonneg_right ?_ (abs_nonneg _)
  rw [abs_le]
  constructor <;> linarith

/-- C131: if the errors are `C h^p`, the order printed is `p`. -/
theorem C131_exact (runs : List (ℝ × ℝ)) (C p : ℝ) (hC : 0 < C) (h : ∀ x ∈ runs, 0 < x.2 ∧ x.1 = C * x.2 ^ p) (i : ℕ) (a b : ℝ × ℝ)
    (ha : runs[i]? = some a) (hb : runs[i + 1]? = some b) (hne : a.2 ≠ b.2) : (table runs)[i + 1]? = some (b.1, b.2, p) := by
  obtain ⟨pa, ea⟩ := h a (List.mem_of_getElem? ha)
  obtain ⟨pb, eb⟩ := h b (List.mem_of_getElem? hb)
  obtain ⟨r, h1, h2⟩ := C131_rate runs C p 0 hC i a b ha hb pa pb hne (by simp [ea]) (by simp [eb])
  have h3 : r - p = 0 := by simpa using h2
  rw [h1, sub_eq_zero.1 h3]

/-- The first three steps of the script (line 11), with errors of second order. -/
example : (table [(1, 1), (4 / 9, 2 / 3), (1 / 4, 1 / 2)])[2]? = some (1 / 4, 1 / 2, 2) :=
  C131_exact _ 1 2 one_pos (by simp; norm_num) 1 (4 / 9, 2 / 3) (1 / 4, 1 / 2) rfl rfl (by norm_num)

end SpectralDNS.Refinement

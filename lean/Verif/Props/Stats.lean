import Verif.Model.Utilities
import Mathlib.Tactic.Ring
import Mathlib.Tactic.FieldSimp
import Mathlib.Tactic.Linarith
import Mathlib.Algebra.BigOperators.Field

/-!
# C53: the running averages of the channel demo
-/

namespace SpectralDNS.Utilities

open Finset

variable {J : Type*} [Fintype J]

/-! ## Specification: averages of a list of samples -/

/-- Sum over the samples and the horizontal plane of a quantity. -/
def total (q : Sample J → ℕ → J → ℝ) (xs : List (Sample J)) (k : ℕ) : ℝ := (xs.map fun x => ∑ j, q x k j).sum

/-- Its average over the samples and the plane. -/
noncomputable def average (q : Sample J → ℕ → J → ℝ) (xs : List (Sample J)) (k : ℕ) : ℝ :=
  total q xs k / (xs.length * Fintype.card J)

/-- The pressure of a sample (nothing is added when it is not given). -/
def Sample.pressure (x : Sample J) (k : ℕ) (j : J) : ℝ := match x.P with
  | none => 0
  | some P => P k j

/-- The six products of velocity components in the order of the file: xx, yy, zz, xy, xz, yz. -/
def stress : Fin 6 → (Fin 3 → ℝ) → ℝ
  | 0, u => u 0 * u 0
  | 1, u => u 1 * u 1
  | 2, u => u 2 * u 2
  | 3, u => u 0 * u 1
  | 4, u => u 0 * u 2
  | 5, u => u 1 * u 2

/-- The file contains the averages of the samples at all planes `k < K`. -/
structure Holds (K : ℕ) (f : StatsFile) (xs : List (Sample J)) : Prop where
  num : f.num_samples = xs.length
  U : ∀ i, ∀ k < K, f.U i k = average (fun x k j => x.U i k j) xs k
  P : ∀ k < K, f.P k = average (fun x k j => x.pressure k j) xs k
  UU : ∀ i, ∀ k < K, f.UU i k = average (fun x k j => stress i fun c => x.U c k j) xs k

/-- The sums of every rank are those of its planes. -/
structure Sums (ranks N : ℕ) (st : ℕ → Stats) (xs : List (Sample J)) : Prop where
  num : ∀ r < ranks, (st r).num_samples = xs.length
  U : ∀ r < ranks, ∀ i, ∀ k < N, (st r).Umean i k = total (fun x k j => x.U i k j) xs (r * N + k)
  P : ∀ r < ranks, ∀ k < N, (st r).Pmean k = total (fun x k j => x.pressure k j) xs (r * N + k)
  UU : ∀ r < ranks, ∀ i, ∀ k < N, (st r).UU i k = total (fun x k j => stress i fun c => x.U c k j) xs (r * N + k)

theorem total_append (q : Sample J → ℕ → J → ℝ) (xs ys : List (Sample J)) (k : ℕ) : total q (xs ++ ys) k = total q xs k + total q ys k := by
  simp [total]

theorem total_single (q : Sample J → ℕ → J → ℝ) (x : Sample J) (k : ℕ) : total q [x] k = ∑ j, q x k j := by simp [total]

theorem Sums.add {ranks N : ℕ} {st : ℕ → Stats} {xs : List (Sample J)} (h : Sums ranks N st xs) (x : Sample J) :
    Sums ranks N (fun r => (st r).add (x.part r N)) (xs ++ [x]) where
  num r hr := by simp [Stats.add, h.num r hr]
  U r hr i k hk := by rw [total_append, total_single, ← h.U r hr i k hk]; rfl
  P r hr k hk := by
    rw [total_append, total_single, ← h.P r hr k hk]
    rcases hx : x.P with _ | P <;> simp [Stats.add, Sample.part, Sample.pressure, hx]
  UU r hr i k hk := by rw [total_append, total_single, ← h.UU r hr i k hk]; fin_cases i <;> rfl

/-- After the ranks below `n` have written, their planes hold the averages. -/
theorem holds_fold {ranks N : ℕ} {st : ℕ → Stats} {xs : List (Sample J)} (h : Sums ranks N st xs) (f0 : StatsFile) (n : ℕ) (hn : n ≤ ranks) (hpos : 0 < n) :
    Holds (n * N) ((List.range n).foldl (fun f r => (st r).write r N (Fintype.card J) f) f0) xs := by
  have key : ∀ n ≤ ranks, ∀ f, f = (List.range n).foldl (fun f r => (st r).write r N (Fintype.card J) f) f0 →
      (0 < n → f.num_samples = xs.length) ∧
      (∀ i, ∀ k < n * N, f.U i k = average (fun x k j => x.U i k j) xs k) ∧
      (∀ k < n * N, f.P k = average (fun x k j => x.pressure k j) xs k) ∧
      (∀ i, ∀ k < n * N, f.UU i k = average (fun x k j => stress i fun c => x.U c k j) xs k) := by
    intro n
    induction n with
    | zero => intro _ f _; simp
    | succ n ih =>
      intro hn f hf
      obtain ⟨_, h2, h3, h4⟩ := ih (by omega) _ rfl
      rw [List.range_succ, List.foldl_append, List.foldl_cons, List.foldl_nil] at hf
      have hnr : n < ranks := by omega
      have hsl : ∀ k, k < (n + 1) * N → ¬ inSlice n N k → k < n * N := by
        intro k hk hc
        unfold inSlice at hc
        by_contra hge
        exact hc ⟨by omega, hk⟩
      have hin : ∀ k, inSlice n N k → k - n * N < N ∧ n * N + (k - n * N) = k := by
        intro k hk
        have h1 := hk.1
        have h2 := hk.2
        rw [Nat.add_mul, one_mul] at h2
        omega
      subst hf
      refine ⟨fun _ => h.num n hnr, fun i k hk => ?_, fun k hk => ?_, fun i k hk => ?_⟩
      · by_cases hc : inSlice n N k
        · simp only [Stats.write, if_pos hc]
          rw [h.U n hnr i _ (hin k hc).1, (hin k hc).2, h.num n hnr]; rfl
        · simp only [Stats.write, if_neg hc]
          exact h2 i k (hsl k hk hc)
      · by_cases hc : inSlice n N k
        · simp only [Stats.write, if_pos hc]
          rw [h.P n hnr _ (hin k hc).1, (hin k hc).2, h.num n hnr]; rfl
        · simp only [Stats.write, if_neg hc]
          exact h3 k (hsl k hk hc)
      · by_cases hc : inSlice n N k
        · simp only [Stats.write, if_pos hc]
          rw [h.UU n hnr i _ (hin k hc).1, (hin k hc).2, h.num n hnr]; rfl
        · simp only [Stats.write, if_neg hc]
          exact h4 i k (hsl k hk hc)
  obtain ⟨h1, h2, h3, h4⟩ := key n hn _ rfl
  exact ⟨h1 hpos, h2, h3, h4⟩

theorem sampleList_spec {ranks N : ℕ} (hr : 0 < ranks) (ys : List (Sample J)) {xs : List (Sample J)} {s : (ℕ → Stats) × StatsFile}
    (h : Sums ranks N s.1 xs) :
    Sums ranks N (sampleList ranks N ys s).1 (xs ++ ys) ∧ (ys ≠ [] → Holds (ranks * N) (sampleList ranks N ys s).2 (xs ++ ys)) := by
  induction ys generalizing xs s with
  | nil => simpa [sampleList] using h
  | cons y ys ih =>
    have h1 : Sums ranks N (sampleAll ranks N y s).1 (xs ++ [y]) := h.add y
    have h2 := ih h1
    have e : sampleList ranks N (y :: ys) s = sampleList ranks N ys (sampleAll ranks N y s) := rfl
    rw [e]
    have hl : xs ++ y :: ys = xs ++ [y] ++ ys := by simp
    rw [hl]
    refine ⟨h2.1, fun _ => ?_⟩
    rcases ys with _ | ⟨z, zs⟩
    · simp only [List.append_nil]
      exact holds_fold h1 s.2 ranks le_rfl hr
    · exact h2.2 (by simp)

theorem average_mul (hJ : 0 < Fintype.card J) (q : Sample J → ℕ → J → ℝ) (xs : List (Sample J)) (hx : xs ≠ []) (k : ℕ) :
    average q xs k * (xs.length * Fintype.card J) = total q xs k := by
  have : (xs.length : ℝ) ≠ 0 := by
    rw [Nat.cast_ne_zero]; exact fun h => hx (List.length_eq_zero_iff.1 h)
  have : (Fintype.card J : ℝ) ≠ 0 := by rw [Nat.cast_ne_zero]; omega
  unfold average
  field_simp

theorem Holds.reload {K ranks N : ℕ} {f : StatsFile} {xs : List (Sample J)} (h : Holds K f xs) (hx : xs ≠ []) (hJ : 0 < Fintype.card J)
    (hK : ranks * N = K) : Sums ranks N (fun r => Stats.fromfile f r N (Fintype.card J)) xs := by
  have hb : ∀ r < ranks, ∀ k < N, r * N + k < K := by
    intro r hr k hk
    have : (r + 1) * N ≤ ranks * N := Nat.mul_le_mul_right _ hr
    rw [Nat.add_mul, one_mul] at this
    omega
  refine ⟨fun _ _ => h.num, fun r hr i k hk => ?_, fun r hr k hk => ?_, fun r hr i k hk => ?_⟩
  · simp only [Stats.fromfile]; rw [h.U i _ (hb r hr k hk), h.num, average_mul hJ _ _ hx]
  · simp only [Stats.fromfile]; rw [h.P _ (hb r hr k hk), h.num, average_mul hJ _ _ hx]
  · simp only [Stats.fromfile]; rw [h.UU i _ (hb r hr k hk), h.num, average_mul hJ _ _ hx]

theorem sums_init (ranks N : ℕ) : Sums (J := J) ranks N (fun _ => Stats.init) [] := by
  constructor <;> intros <;> simp [Stats.init, total]

/-- **C53.** The file holds, after every sample, the averages over all samples so far, on any number of ranks. -/
theorem C53_averages {ranks N : ℕ} (hr : 0 < ranks) (xs : List (Sample J)) (hx : xs ≠ []) (f0 : StatsFile) :
    Holds (ranks * N) (sampleList ranks N xs (fun _ => Stats.init, f0)).2 xs := by
  have h := (sampleList_spec (s := (fun _ => Stats.init, f0)) hr xs (sums_init ranks N)).2 hx
  rwa [List.nil_append] at h

/-- **C53.** Sampling, saving, reloading (on any number of ranks that divides the planes evenly) and sampling on gives the averages
over all samples. -/
theorem C53_reload {ranks N ranks' N' : ℕ} (hr : 0 < ranks) (hr' : 0 < ranks') (hN : ranks' * N' = ranks * N) (hJ : 0 < Fintype.card J)
    (xs ys : List (Sample J)) (hx : xs ≠ []) (hy : ys ≠ []) (f0 : StatsFile) :
    let f := (sampleList ranks N xs (fun _ => Stats.init, f0)).2
    Holds (ranks * N) (sampleList ranks' N' ys (fun r => Stats.fromfile f r N' (Fintype.card J), f)).2 (xs ++ ys) := by
  intro f
  have h := (C53_averages (N := N) hr xs hx f0).reload hx hJ hN
  rw [← hN]
  exact (sampleList_spec hr' ys h).2 hy

/-- **C53.** An interrupted and an uninterrupted run leave the same file. -/
theorem C53_interrupted_eq {ranks N : ℕ} (hr : 0 < ranks) (hJ : 0 < Fintype.card J)
    (xs ys : List (Sample J)) (hx : xs ≠ []) (hy : ys ≠ []) (f0 : StatsFile) :
    let f := (sampleList ranks N xs (fun _ => Stats.init, f0)).2
    let a := (sampleList ranks N ys (fun r => Stats.fromfile f r N (Fintype.card J), f)).2
    let b := (sampleList ranks N (xs ++ ys) (fun _ => Stats.init, f0)).2
    a.num_samples = b.num_samples ∧ (∀ i, ∀ k < ranks * N, a.U i k = b.U i k) ∧ (∀ k < ranks * N, a.P k = b.P k) ∧
      ∀ i, ∀ k < ranks * N, a.UU i k = b.UU i k := by
  intro f a b
  have ha : Holds (ranks * N) a (xs ++ ys) := C53_reload hr hr rfl hJ xs ys hx hy f0
  have hb : Holds (ranks * N) b (xs ++ ys) := C53_averages hr (xs ++ ys) (by simp [hx]) f0
  exact ⟨ha.num.trans hb.num.symm, fun i k hk => (ha.U i k hk).trans (hb.U i k hk).symm, fun k hk => (ha.P k hk).trans (hb.P k hk).symm,
    fun i k hk => (ha.UU i k hk).trans (hb.UU i k hk).symm⟩

/-- The slices assume that all ranks hold equally many planes: with 3 planes on rank 0 and 2 on rank 1, rank 1 writes to planes 2 and 3
instead of 3 and 4. -/
theorem C53_uneven_slices_false : ∃ k, inSlice 0 3 k ∧ inSlice 1 2 k ∧ ¬ inSlice 1 2 4 := ⟨2, by unfold inSlice; omega⟩

/-- Samples of a one-point plane with values 1 and 3 on two ranks with one plane each: the average is 2. -/
example : average (J := Fin 1) (fun x k j => x.U 0 k j) [⟨fun _ _ _ => 1, none⟩, ⟨fun _ _ _ => 3, none⟩] 0 = 2 := by
  norm_num [average, total]

end SpectralDNS.Utilities

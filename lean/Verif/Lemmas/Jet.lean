import Mathlib.Analysis.Calculus.MeanValue
import Mathlib.Analysis.Calculus.Deriv.Pow
import Mathlib.Analysis.Normed.Operator.Bilinear
import Mathlib.Algebra.BigOperators.NatAntidiagonal
import Verif.Lemmas.Order

/-!
# Uniform Taylor expansions in the step size

`HasJet D n g c`: `g p h = Σ_{m<n} h^m c p m + O(h^n)`, uniformly over the pairs `(p, h)` allowed by `D`.
-/

namespace SpectralDNS

open Finset

variable {P : Type*} {E F G : Type*} [NormedAddCommGroup E] [NormedSpace ℝ E] [NormedAddCommGroup F] [NormedSpace ℝ F]
  [NormedAddCommGroup G] [NormedSpace ℝ G]

/-- Expansion of order `n` in `h` with bounded coefficients, uniform over `D`. -/
def HasJet (D : P → ℝ → Prop) (n : ℕ) (g : P → ℝ → E) (c : P → ℕ → E) : Prop :=
  ∃ C : ℝ, 0 ≤ C ∧ ∀ p h, D p h → ‖g p h - ∑ m ∈ range n, h ^ m • c p m‖ ≤ C * h ^ n ∧ ∀ m < n, ‖c p m‖ ≤ C

/-- Coefficients of `h g`. -/
def shiftJet (c : P → ℕ → E) (p : P) : ℕ → E
  | 0 => 0
  | m + 1 => c p m

/-- Coefficients of the integral of `g`. -/
noncomputable def intJet (c : P → ℕ → E) (p : P) : ℕ → E
  | 0 => 0
  | m + 1 => (1 / ((m : ℝ) + 1)) • c p m

/-- Coefficients of a bilinear expression. -/
noncomputable def bilJet (Q : E →L[ℝ] F →L[ℝ] G) (c : P → ℕ → E) (c' : P → ℕ → F) (p : P) (m : ℕ) : G :=
  ∑ ij ∈ antidiagonal m, Q (c p ij.1) (c' p ij.2)

/-- Coefficients of a constant. -/
def constJet (x : P → E) (p : P) : ℕ → E
  | 0 => x p
  | _ + 1 => 0

variable {D : P → ℝ → Prop} {n : ℕ}

theorem norm_jet_le {g : P → ℝ → E} {c : P → ℕ → E} {C : ℝ} (p : P) (h : ℝ) (h0 : 0 ≤ h) (h1 : h ≤ 1)
    (hc : ∀ m < n, ‖c p m‖ ≤ C) : ‖∑ m ∈ range n, h ^ m • c p m‖ ≤ n * C := by
  refine (norm_sum_le _ _).trans ?_
  calc ∑ m ∈ range n, ‖h ^ m • c p m‖ ≤ ∑ _m ∈ range n, C := by
        refine sum_le_sum fun m hm => ?_
        rw [norm_smul, Real.norm_of_nonneg (pow_nonneg h0 m)]
        calc h ^ m * ‖c p m‖ ≤ 1 * ‖c p m‖ := mul_le_mul_of_nonneg_right (pow_le_one₀ h0 h1) (norm_nonneg _)
          _ ≤ C := by rw [one_mul]; exact hc m (mem_range.1 hm)
    _ = n * C := by rw [sum_const, card_range, nsmul_eq_mul]

theorem HasJet.of_succ (hD : ∀ p h, D p h → 0 ≤ h ∧ h ≤ 1) {g : P → ℝ → E} {c : P → ℕ → E} (H : HasJet D (n + 1) g c) :
    HasJet D n g c := by
  obtain ⟨C, hC, H⟩ := H
  refine ⟨2 * C, by linarith, fun p h hp => ?_⟩
  obtain ⟨h0, h1⟩ := hD p h hp
  obtain ⟨hg, hc⟩ := H p h hp
  refine ⟨?_, fun m hm => (hc m (by omega)).trans (by linarith)⟩
  have e : g p h - ∑ m ∈ range n, h ^ m • c p m = (g p h - ∑ m ∈ range (n + 1), h ^ m • c p m) + h ^ n • c p n := by
    rw [sum_range_succ]; abel
  have hp : 0 ≤ h ^ n := pow_nonneg h0 n
  rw [e]
  refine (norm_add_le _ _).trans ?_
  rw [norm_smul, Real.norm_of_nonneg hp]
  have h2 : C * h ^ (n + 1) ≤ C * h ^ n := mul_le_mul_of_nonneg_left (pow_le_pow_of_le_one h0 h1 (by omega)) hC
  have h3 : h ^ n * ‖c p n‖ ≤ h ^ n * C := mul_le_mul_of_nonneg_left (hc n (by omega)) hp
  nlinarith

theorem HasJet.add {g g' : P → ℝ → E} {c c' : P → ℕ → E} (H : HasJet D n g c) (H' : HasJet D n g' c') :
    HasJet D n (fun p h => g p h + g' p h) (fun p m => c p m + c' p m) := by
  obtain ⟨C, hC, H⟩ := H
  obtain ⟨C', hC', H'⟩ := H'
  refine ⟨C + C', by linarith, fun p h hp => ⟨?_, fun m hm => (norm_add_le _ _).trans (add_le_add ((H p h hp).2 m hm) ((H' p h hp).2 m hm))⟩⟩
  have e : g p h + g' p h - ∑ m ∈ range n, h ^ m • (c p m + c' p m) =
      (g p h - ∑ m ∈ range n, h ^ m • c p m) + (g' p h - ∑ m ∈ range n, h ^ m • c' p m) := by
    simp only [smul_add, sum_add_distrib]; abel
  rw [e, add_mul]
  exact (norm_add_le _ _).trans (add_le_add (H p h hp).1 (H' p h hp).1)

theorem HasJet.lin {B : P → E →L[ℝ] F} {g : P → ℝ → E} {c : P → ℕ → E} (H : HasJet D n g c) {M : ℝ} (hM : 0 ≤ M)
    (hB : ∀ p h, D p h → ‖B p‖ ≤ M) : HasJet D n (fun p h => B p (g p h)) (fun p m => B p (c p m)) := by
  obtain ⟨C, hC, H⟩ := H
  refine ⟨M * C, mul_nonneg hM hC, fun p h hp => ⟨?_, fun m hm => ?_⟩⟩
  · have e : B p (g p h) - ∑ m ∈ range n, h ^ m • B p (c p m) = B p (g p h - ∑ m ∈ range n, h ^ m • c p m) := by
      simp only [map_sub, map_sum, map_smul]
    rw [e, mul_assoc]
    exact ((B p).le_opNorm _).trans (mul_le_mul (hB p h hp) (H p h hp).1 (norm_nonneg _) hM)
  · exact ((B p).le_opNorm _).trans (mul_le_mul (hB p h hp) ((H p h hp).2 m hm) (norm_nonneg _) hM)

theorem HasJet.const_smul {g : P → ℝ → E} {c : P → ℕ → E} (H : HasJet D n g c) (r : ℝ) :
    HasJet D n (fun p h => r • g p h) (fun p m => r • c p m) :=
  H.lin (B := fun _ => r • ContinuousLinearMap.id ℝ E) (norm_nonneg _) fun _ _ _ => le_refl _

theorem HasJet.zero : HasJet D n (fun _ _ => (0 : E)) (fun _ _ => 0) :=
  ⟨0, le_refl _, fun p h _ => by simp⟩

theorem HasJet.sum {α : Type*} (s : Finset α) {g : α → P → ℝ → E} {c : α → P → ℕ → E}
    (H : ∀ a ∈ s, HasJet D n (g a) (c a)) : HasJet D n (fun p h => ∑ a ∈ s, g a p h) (fun p m => ∑ a ∈ s, c a p m) := by
  classical
  induction s using Finset.induction_on with
  | empty => simpa using HasJet.zero
  | insert a s ha ih =>
    simp only [sum_insert ha]
    exact (H a (mem_insert_self _ _)).add (ih fun b hb => H b (mem_insert_of_mem hb))

theorem HasJet.const {x : P → E} {M : ℝ} (hD : ∀ p h, D p h → 0 ≤ h ∧ h ≤ 1) (hM : 0 ≤ M) (hx : ∀ p h, D p h → ‖x p‖ ≤ M) :
    HasJet D n (fun p _ => x p) (constJet x) := by
  refine ⟨M, hM, fun p h hp => ⟨?_, fun m _ => ?_⟩⟩
  · cases n with
    | zero => simpa using hx p h hp
    | succ n =>
      rw [sum_range_succ']
      simp only [constJet, smul_zero, sum_const_zero, pow_zero, one_smul, zero_add, sub_self, norm_zero]
      exact mul_nonneg hM (pow_nonneg (hD p h hp).1 _)
  · cases m with
    | zero => exact hx p h hp
    | succ m => simpa [constJet] using hM

theorem HasJet.shift {g : P → ℝ → E} {c : P → ℕ → E} (hD : ∀ p h, D p h → 0 ≤ h ∧ h ≤ 1) (H : HasJet D n g c) :
    HasJet D (n + 1) (fun p h => h • g p h) (shiftJet c) := by
  obtain ⟨C, hC, H⟩ := H
  refine ⟨C, hC, fun p h hp => ⟨?_, fun m hm => ?_⟩⟩
  · have e : h • g p h - ∑ m ∈ range (n + 1), h ^ m • shiftJet c p m = h • (g p h - ∑ m ∈ range n, h ^ m • c p m) := by
      rw [sum_range_succ', smul_sub, smul_sum]
      simp only [shiftJet, smul_zero, add_zero, smul_smul, pow_succ']
    rw [e, norm_smul, Real.norm_of_nonneg (hD p h hp).1, pow_succ']
    calc h * _ ≤ h * (C * h ^ n) := mul_le_mul_of_nonneg_left (H p h hp).1 (hD p h hp).1
      _ = _ := by ring
  · cases m with
    | zero => simpa [shiftJet] using hC
    | succ m => exact (H p h hp).2 m (by omega)

theorem sum_antidiagonal_range (f : ℕ × ℕ → G) (n : ℕ) :
    ∑ m ∈ range n, ∑ ij ∈ antidiagonal m, f ij = ∑ ij ∈ (range n ×ˢ range n).filter (fun ij => ij.1 + ij.2 < n), f ij := by
  rw [← sum_fiberwise_of_maps_to (s := (range n ×ˢ range n).filter (fun ij => ij.1 + ij.2 < n)) (t := range n)
    (g := fun ij => ij.1 + ij.2) (fun ij h => by simp only [mem_filter] at h; simpa using h.2)]
  refine sum_congr rfl fun m hm => sum_congr ?_ fun _ _ => rfl
  have hm := mem_range.1 hm
  ext ⟨i, j⟩
  simp only [mem_antidiagonal, mem_filter, mem_product, mem_range]
  omega

theorem HasJet.bil (hD : ∀ p h, D p h → 0 ≤ h ∧ h ≤ 1) (Q : E →L[ℝ] F →L[ℝ] G) {g : P → ℝ → E} {c : P → ℕ → E}
    {g' : P → ℝ → F} {c' : P → ℕ → F} (H : HasJet D n g c) (H' : HasJet D n g' c') :
    HasJet D n (fun p h => Q (g p h) (g' p h)) (bilJet Q c c') := by
  obtain ⟨C, hC, H⟩ := H
  obtain ⟨C', hC', H'⟩ := H'
  have hQ := norm_nonneg Q
  have hn : (0 : ℝ) ≤ n := Nat.cast_nonneg n
  refine ⟨‖Q‖ * C * (n * C' + C') + ‖Q‖ * (n * C) * C' + (n * n) * (‖Q‖ * C * C') + n * (‖Q‖ * C * C'), by positivity, fun p h hp => ⟨?_, fun m hm => ?_⟩⟩
  · obtain ⟨h0, h1⟩ := hD p h hp
    obtain ⟨hg, hc⟩ := H p h hp
    obtain ⟨hg', hc'⟩ := H' p h hp
    set S := ∑ m ∈ range n, h ^ m • c p m with hS
    set S' := ∑ m ∈ range n, h ^ m • c' p m with hS'
    have hSb : ‖S‖ ≤ n * C := norm_jet_le (g := g) p h h0 h1 hc
    have hSb' : ‖S'‖ ≤ n * C' := norm_jet_le (g := g') p h h0 h1 hc'
    have hpn : 0 ≤ h ^ n := pow_nonneg h0 n
    have hpn1 : h ^ n ≤ 1 := pow_le_one₀ h0 h1
    have hgb' : ‖g' p h‖ ≤ n * C' + C' := by
      have : g' p h = S' + (g' p h - S') := by abel
      rw [this]
      refine (norm_add_le _ _).trans (add_le_add hSb' (hg'.trans ?_))
      nlinarith
    have e1 : Q S S' = ∑ ij ∈ range n ×ˢ range n, h ^ (ij.1 + ij.2) • Q (c p ij.1) (c' p ij.2) := by
      rw [sum_product, hS, hS']
      simp only [map_sum, ContinuousLinearMap.sum_apply, map_smul, ContinuousLinearMap.smul_apply, smul_smul, smul_sum]
      rw [sum_comm]
      refine sum_congr rfl fun i _ => sum_congr rfl fun j _ => ?_
      rw [pow_add, mul_comm]
    have e2 : ∑ m ∈ range n, h ^ m • bilJet Q c c' p m =
        ∑ ij ∈ (range n ×ˢ range n).filter (fun ij => ij.1 + ij.2 < n), h ^ (ij.1 + ij.2) • Q (c p ij.1) (c' p ij.2) := by
      rw [← sum_antidiagonal_range]
      refine sum_congr rfl fun m _ => ?_
      rw [bilJet, smul_sum]
      refine sum_congr rfl fun ij hij => ?_
      rw [mem_antidiagonal.1 hij]
    have e3 : Q S S' - ∑ m ∈ range n, h ^ m • bilJet Q c c' p m =
        ∑ ij ∈ (range n ×ˢ range n).filter (fun ij => ¬ ij.1 + ij.2 < n), h ^ (ij.1 + ij.2) • Q (c p ij.1) (c' p ij.2) := by
      rw [e1, e2, ← sum_filter_add_sum_filter_not (range n ×ˢ range n) (fun ij => ij.1 + ij.2 < n), add_sub_cancel_left]
    have h3 : ‖Q S S' - ∑ m ∈ range n, h ^ m • bilJet Q c c' p m‖ ≤ (n * n) * (‖Q‖ * C * C') * h ^ n := by
      rw [e3]
      refine (norm_sum_le _ _).trans ?_
      have hb : ∀ ij ∈ (range n ×ˢ range n).filter (fun ij => ¬ ij.1 + ij.2 < n),
          ‖h ^ (ij.1 + ij.2) • Q (c p ij.1) (c' p ij.2)‖ ≤ ‖Q‖ * C * C' * h ^ n := by
        intro ij hij
        simp only [mem_filter, mem_product, mem_range] at hij
        rw [norm_smul, Real.norm_of_nonneg (pow_nonneg h0 _), mul_comm]
        refine mul_le_mul ((Q.le_opNorm₂ _ _).trans ?_) (pow_le_pow_of_le_one h0 h1 (by omega)) (pow_nonneg h0 _) (by positivity)
        exact mul_le_mul (mul_le_mul_of_nonneg_left (hc _ hij.1.1) hQ) (hc' _ hij.1.2) (norm_nonneg _) (by positivity)
      refine (sum_le_sum hb).trans ?_
      rw [sum_const, nsmul_eq_mul, mul_assoc ((n : ℝ) * n)]
      refine mul_le_mul_of_nonneg_right ?_ (by positivity)
      have := card_filter_le (range n ×ˢ range n) (fun ij => ¬ ij.1 + ij.2 < n)
      rw [card_product, card_range] at this
      exact_mod_cast this
    have e4 : Q (g p h) (g' p h) - ∑ m ∈ range n, h ^ m • bilJet Q c c' p m =
        Q (g p h - S) (g' p h) + Q S (g' p h - S') + (Q S S' - ∑ m ∈ range n, h ^ m • bilJet Q c c' p m) := by
      simp only [map_sub, sub_apply]; abel
    rw [e4]
    have h1' : ‖Q (g p h - S) (g' p h)‖ ≤ ‖Q‖ * (C * h ^ n) * (n * C' + C') :=
      (Q.le_opNorm₂ _ _).trans (mul_le_mul (mul_le_mul_of_nonneg_left hg hQ) hgb' (norm_nonneg _) (by positivity))
    have h2' : ‖Q S (g' p h - S')‖ ≤ ‖Q‖ * (n * C) * (C' * h ^ n) :=
      (Q.le_opNorm₂ _ _).trans (mul_le_mul (mul_le_mul_of_nonneg_left hSb hQ) hg' (norm_nonneg _) (by positivity))
    have h4 : 0 ≤ n * (‖Q‖ * C * C') * h ^ n := by positivity
    have := (norm_add_le (Q (g p h - S) (g' p h) + Q S (g' p h - S')) (Q S S' - ∑ m ∈ range n, h ^ m • bilJet Q c c' p m)).trans
      (add_le_add_left (norm_add_le _ _) _)
    nlinarith
  · have hb : ∀ ij ∈ antidiagonal m, ‖Q (c p ij.1) (c' p ij.2)‖ ≤ ‖Q‖ * C * C' := by
      intro ij hij
      have := mem_antidiagonal.1 hij
      exact (Q.le_opNorm₂ _ _).trans (mul_le_mul (mul_le_mul_of_nonneg_left ((H p h hp).2 _ (by omega)) hQ)
        ((H' p h hp).2 _ (by omega)) (norm_nonneg _) (by positivity))
    refine (norm_sum_le _ _).trans ((sum_le_sum hb).trans ?_)
    rw [sum_const, nsmul_eq_mul, Nat.card_antidiagonal]
    have hmn : ((m + 1 : ℕ) : ℝ) ≤ n := by exact_mod_cast hm
    have := mul_le_mul_of_nonneg_right hmn (show 0 ≤ ‖Q‖ * C * C' by positivity)
    have h5 : 0 ≤ ‖Q‖ * C * (n * C' + C') + ‖Q‖ * (n * C) * C' + (n * n) * (‖Q‖ * C * C') := by positivity
    linarith

/-- Integration raises the order by one. -/
theorem HasJet.integral (hD : ∀ p h, D p h → 0 ≤ h ∧ h ≤ 1) (hmono : ∀ p h h', D p h → 0 ≤ h' → h' ≤ h → D p h')
    {k v : P → ℝ → E} {c : P → ℕ → E} (H : HasJet D n k c) (hv0 : ∀ p h, D p h → v p 0 = 0)
    (hv : ∀ p h, D p h → ∀ x ∈ Set.Icc 0 h, HasDerivWithinAt (v p) (k p x) (Set.Icc 0 h) x) :
    HasJet D (n + 1) v (intJet c) := by
  obtain ⟨C, hC, H⟩ := H
  refine ⟨C, hC, fun p h hp => ⟨?_, fun m hm => ?_⟩⟩
  · obtain ⟨h0, h1⟩ := hD p h hp
    have hder : ∀ x ∈ Set.Icc 0 h, HasDerivWithinAt (fun x => v p x - ∑ m ∈ range (n + 1), x ^ m • intJet c p m)
        (k p x - ∑ m ∈ range n, x ^ m • c p m) (Set.Icc 0 h) x := by
      intro x hx
      refine (hv p h hp x hx).sub ?_
      have h2 : ∀ m ∈ range n, HasDerivWithinAt (fun x : ℝ => x ^ (m + 1) • intJet c p (m + 1)) (x ^ m • c p m) (Set.Icc 0 h) x := by
        intro m _
        have := ((hasDerivAt_pow (m + 1) x).hasDerivWithinAt (s := Set.Icc 0 h)).smul_const (intJet c p (m + 1))
        refine this.congr_deriv ?_
        rw [intJet, smul_smul]
        congr 1
        have : ((m : ℝ) + 1) ≠ 0 := by positivity
        push_cast
        field_simp
      have h3 := HasDerivWithinAt.fun_sum h2
      refine h3.congr_of_mem (fun y _ => ?_) hx
      rw [sum_range_succ']
      simp [intJet]
    have hb := norm_image_sub_le_of_norm_deriv_le_segment' hder (C := C * h ^ n) (fun x hx => ?_) h ⟨h0, le_refl _⟩
    · simp only [hv0 p h hp] at hb
      rw [sum_range_succ' (fun m => (0 : ℝ) ^ m • intJet c p m)] at hb
      simp only [ne_eq, Nat.add_eq_zero_iff, one_ne_zero, and_false, not_false_eq_true, zero_pow, zero_smul, sum_const_zero, intJet,
        smul_zero, add_zero, sub_zero] at hb
      refine hb.trans (le_of_eq ?_)
      ring
    · have := (H p x (hmono p h x hp hx.1 hx.2.le)).1
      exact this.trans (mul_le_mul_of_nonneg_left (pow_le_pow_left₀ hx.1 hx.2.le n) hC)
  · cases m with
    | zero => simpa [intJet] using hC
    | succ m =>
      rw [intJet, norm_smul]
      have h1 : ‖1 / ((m : ℝ) + 1)‖ ≤ 1 := by
        rw [Real.norm_of_nonneg (by positivity), div_le_one (by positivity)]
        linarith [(Nat.cast_nonneg m : (0 : ℝ) ≤ m)]
      calc _ ≤ 1 * ‖c p m‖ := mul_le_mul_of_nonneg_right h1 (norm_nonneg _)
        _ ≤ C := by rw [one_mul]; exact (H p h hp).2 m (by omega)

/-- Two expansions with the same coefficients differ by `O(h^n)`. -/
theorem HasJet.close {g g' : P → ℝ → E} {c c' : P → ℕ → E} (H : HasJet D n g c) (H' : HasJet D n g' c')
    (hc : ∀ p, ∀ m < n, c p m = c' p m) : ∃ C, 0 ≤ C ∧ ∀ p h, D p h → ‖g p h - g' p h‖ ≤ C * h ^ n := by
  obtain ⟨C, hC, H⟩ := H
  obtain ⟨C', hC', H'⟩ := H'
  refine ⟨C + C', by linarith, fun p h hp => ?_⟩
  have e : g p h - g' p h = (g p h - ∑ m ∈ range n, h ^ m • c p m) - (g' p h - ∑ m ∈ range n, h ^ m • c' p m) := by
    rw [sum_congr rfl fun m hm => by rw [hc p m (mem_range.1 hm)]]; abel
  rw [e, add_mul]
  exact (norm_sub_le _ _).trans (add_le_add (H p h hp).1 (H' p h hp).1)

end SpectralDNS

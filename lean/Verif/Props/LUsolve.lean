import Verif.Lemmas.LUsolve

/-!
# C38: `Mult_CTD`
-/

namespace SpectralDNS.LUsolve

open Polynomial Polynomial.Chebyshev Finset SpectralDNS.Spec.Cheb

theorem addr_inj {p st i j : ℕ} (hst : 0 < st) (h : p + i * st = p + j * st) : i = j :=
  Nat.eq_of_mul_eq_mul_right hst (by omega)

/-- State of one component when the loop is about to treat index `m`. -/
structure Inv (N p st : ℕ) (v b0 b : ℕ → ℂ) (m : ℕ) (s0 s1 : ℂ) : Prop where
  vals : ∀ i, m < i → i < N → b (p + i * st) = dcoef N (fun i => v (p + i * st)) i
  frame : ∀ a, (∀ i < N, a ≠ p + i * st) → b a = b0 a
  even : s0 = tail N (fun i => v (p + i * st)) (if m % 2 = 0 then m + 3 else m + 2)
  odd : s1 = tail N (fun i => v (p + i * st)) (if m % 2 = 0 then m + 2 else m + 3)

theorem Inv.write {N p st : ℕ} (hst : 0 < st) {v b0 b : ℕ → ℂ} {m : ℕ} {s0 s1 : ℂ} (h : Inv N p st v b0 b (m + 1) s0 s1) (hm : m + 1 < N)
    (y : ℂ) (hy : y = dcoef N (fun i => v (p + i * st)) (m + 1)) (x : ℂ) :
    (∀ i, m < i → i < N → Function.update (Function.update b (p + (m + 1) * st) x) (p + (m + 1) * st) y (p + i * st) =
      dcoef N (fun i => v (p + i * st)) i) ∧
    (∀ a, (∀ i < N, a ≠ p + i * st) → Function.update (Function.update b (p + (m + 1) * st) x) (p + (m + 1) * st) y a = b0 a) := by
  constructor
  · intro i hi hiN
    by_cases hc : i = m + 1
    · subst hc; rw [Function.update_self, hy]
    · have : p + i * st ≠ p + (m + 1) * st := fun he => hc (addr_inj hst he)
      rw [Function.update_of_ne this, Function.update_of_ne this]
      exact h.vals i (by omega) hiN
  · intro a ha
    have := ha (m + 1) hm
    rw [Function.update_of_ne this, Function.update_of_ne this]
    exact h.frame a ha

theorem inv_even {N p st : ℕ} (hst : 0 < st) {v b0 b : ℕ → ℂ} {m : ℕ} {s0 s1 : ℂ} (h : Inv N p st v b0 b (m + 1) s0 s1)
    (hm : m + 1 ≤ N - 4) (hev : (m + 1) % 2 = 0) :
    let c := Function.update b (p + (m + 1) * st) (-2 * (((m + 1 : ℕ) : ℂ) + 1) * v (p + (m + 1 - 1) * st))
    let t := s0 + v (p + (m + 1 + 1) * st)
    Inv N p st v b0 (Function.update c (p + (m + 1) * st) (c (p + (m + 1) * st) - t * 4)) m t s1 := by
  intro c t
  have ht : t = tail N (fun i => v (p + i * st)) (m + 2) := by
    rw [tail_eq, ext_lt _ _ _ (by omega)]
    show s0 + _ = _
    rw [h.even, if_pos hev, add_comm]
  obtain ⟨h1, h2⟩ := h.write hst (by omega) (c (p + (m + 1) * st) - t * 4) (by
    simp only [c]
    rw [Function.update_self, ht]
    unfold dcoef
    rw [if_neg (by omega), Nat.add_sub_cancel, ext_lt _ _ _ (by omega)]
    ring) (-2 * (((m + 1 : ℕ) : ℂ) + 1) * v (p + (m + 1 - 1) * st))
  refine ⟨h1, h2, ?_, ?_⟩
  · rw [if_neg (by omega), ht]
  · rw [if_neg (by omega), h.odd, if_pos hev]

theorem inv_odd {N p st : ℕ} (hst : 0 < st) {v b0 b : ℕ → ℂ} {m : ℕ} {s0 s1 : ℂ} (h : Inv N p st v b0 b (m + 1) s0 s1)
    (hm : m + 1 ≤ N - 4) (hod : ¬ (m + 1) % 2 = 0) :
    let c := Function.update b (p + (m + 1) * st) (-2 * (((m + 1 : ℕ) : ℂ) + 1) * v (p + (m + 1 - 1) * st))
    let t := s1 + v (p + (m + 1 + 1) * st)
    Inv N p st v b0 (Function.update c (p + (m + 1) * st) (c (p + (m + 1) * st) - t * 4)) m s0 t := by
  intro c t
  have ht : t = tail N (fun i => v (p + i * st)) (m + 2) := by
    rw [tail_eq, ext_lt _ _ _ (by omega)]
    show s1 + _ = _
    rw [h.odd, if_neg hod, add_comm]
  obtain ⟨h1, h2⟩ := h.write hst (by omega) (c (p + (m + 1) * st) - t * 4) (by
    simp only [c]
    rw [Function.update_self, ht]
    unfold dcoef
    rw [if_neg (by omega), Nat.add_sub_cancel, ext_lt _ _ _ (by omega)]
    ring) (-2 * (((m + 1 : ℕ) : ℂ) + 1) * v (p + (m + 1 - 1) * st))
  refine ⟨h1, h2, ?_, ?_⟩
  · rw [if_pos (by omega), h.even, if_neg hod]
  · rw [if_pos (by omega), ht]

theorem inv_start {N p st : ℕ} (hN : 4 ≤ N) (hst : 0 < st) (v b0 : ℕ → ℂ) :
    Inv N p st v b0 (Function.update (Function.update (Function.update b0 (p + (N - 1) * st) 0)
      (p + (N - 2) * st) (-2 * ((N : ℂ) - 1) * v (p + (N - 3) * st))) (p + (N - 3) * st) (-2 * ((N : ℂ) - 2) * v (p + (N - 4) * st)))
      (N - 4) 0 0 := by
  have hne : ∀ i j : ℕ, i ≠ j → p + i * st ≠ p + j * st := fun i j h he => h (addr_inj hst he)
  refine ⟨fun i hi hiN => ?_, fun a ha => ?_, ?_, ?_⟩
  · obtain rfl | rfl | rfl : i = N - 3 ∨ i = N - 2 ∨ i = N - 1 := by omega
    · rw [Function.update_self, dcoef, if_neg (by omega), tail_zero _ _ _ (by omega), ext_lt _ _ _ (by omega)]
      rw [show N - 3 - 1 = N - 4 by omega, Nat.cast_sub (by omega : 3 ≤ N)]
      push_cast
      ring
    · rw [Function.update_of_ne (hne _ _ (by omega)), Function.update_self, dcoef, if_neg (by omega), tail_zero _ _ _ (by omega), ext_lt _ _ _ (by omega)]
      rw [show N - 2 - 1 = N - 3 by omega, Nat.cast_sub (by omega : 2 ≤ N)]
      push_cast
      ring
    · rw [Function.update_of_ne (hne _ _ (by omega)), Function.update_of_ne (hne _ _ (by omega)), Function.update_self, dcoef, if_neg (by omega),
        tail_zero _ _ _ (by omega), ext_ge _ _ _ (by omega)]
      ring
  · rw [Function.update_of_ne (ha _ (by omega)), Function.update_of_ne (ha _ (by omega)), Function.update_of_ne (ha _ (by omega))]
  · rw [tail_zero _ _ _ (by split_ifs <;> omega)]
  · rw [tail_zero _ _ _ (by split_ifs <;> omega)]

theorem inv_end {N p st : ℕ} (hN : 4 ≤ N) (hst : 0 < st) {v b0 b : ℕ → ℂ} {s0 s1 : ℂ} (h : Inv N p st v b0 b 0 s0 s1) :
    (∀ i < N, Function.update b p (-(s0 + v (p + st)) * 2) (p + i * st) = dcoef N (fun i => v (p + i * st)) i) ∧
      ∀ a, (∀ i < N, a ≠ p + i * st) → Function.update b p (-(s0 + v (p + st)) * 2) a = b0 a := by
  constructor
  · intro i hi
    rcases Nat.eq_zero_or_pos i with rfl | hpos
    · have : p + 0 * st = p := by omega
      rw [this, Function.update_self, h.even, dcoef, if_pos rfl, if_pos (by omega), tail_eq N _ 1, ext_lt _ _ _ (by omega), one_mul]
      ring
    · have : p + i * st ≠ p := by
        have : 0 < i * st := Nat.mul_pos hpos hst
        omega
      rw [Function.update_of_ne this]
      exact h.vals i hpos hi
  · intro a ha
    have := ha 0 (by omega)
    rw [Function.update_of_ne (by simpa using this)]
    exact h.frame a ha

/-- What `Mult_CTD_1D_ptr` leaves in memory. -/
theorem multCTD1D_spec {N p st : ℕ} (hN : 4 ≤ N) (hst : 0 < st) (v w bv bw : ℕ → ℂ) :
    let r := multCTD1D N v w bv bw p st
    ((∀ i < N, r.1 (p + i * st) = dcoef N (fun i => v (p + i * st)) i) ∧ ∀ a, (∀ i < N, a ≠ p + i * st) → r.1 a = bv a) ∧
      ((∀ i < N, r.2 (p + i * st) = dcoef N (fun i => w (p + i * st)) i) ∧ ∀ a, (∀ i < N, a ≠ p + i * st) → r.2 a = bw a) := by
  have key := down_inv (fun m (s : CTD) => m ≤ N - 4 → Inv N p st v bv s.bv m s.s0 s.s1 ∧ Inv N p st w bw s.bw m s.s2 s.s3) (ctdBody v w p st) (N - 4)
    ⟨_, _, 0, 0, 0, 0⟩ (fun _ => ⟨inv_start hN hst v bv, inv_start hN hst w bw⟩) (by
      intro i hi s hs _
      obtain ⟨h1, h2⟩ := hs (by omega)
      unfold ctdBody
      by_cases hp : (i + 1) % 2 = 0
      · simp only [if_pos hp]
        exact ⟨inv_even hst h1 (by omega) hp, inv_even hst h2 (by omega) hp⟩
      · simp only [if_neg hp]
        exact ⟨inv_odd hst h1 (by omega) hp, inv_odd hst h2 (by omega) hp⟩) (by omega)
  exact ⟨inv_end hN hst key.1, inv_end hN hst key.2⟩

/-- **C38.** `Mult_CTD_1D_ptr` on a column of coefficients of Shen's Dirichlet basis leaves in the column of the result the Chebyshev
coefficients of the exact derivative, for both components, and nothing else is written. -/
theorem C38_derivative {N p st : ℕ} (hN : 4 ≤ N) (hst : 0 < st) (v w bv bw : ℕ → ℂ) :
    let r := multCTD1D N v w bv bw p st
    series N (fun i => r.1 (p + i * st)) = derivative (dirichlet N fun i => v (p + i * st)) ∧
      series N (fun i => r.2 (p + i * st)) = derivative (dirichlet N fun i => w (p + i * st)) ∧
      ∀ a, (∀ i < N, a ≠ p + i * st) → r.1 a = bv a ∧ r.2 a = bw a := by
  intro r
  obtain ⟨⟨h1, h2⟩, h3, h4⟩ := multCTD1D_spec (p := p) hN hst v w bv bw
  refine ⟨?_, ?_, fun a ha => ⟨h2 a ha, h4 a ha⟩⟩
  · rw [derivative_dirichlet N (by omega)]
    exact sum_congr rfl fun n hn => by rw [← h1 n (mem_range.1 hn)]
  · rw [derivative_dirichlet N (by omega)]
    exact sum_congr rfl fun n hn => by rw [← h3 n (mem_range.1 hn)]

/-- Flat address of entry `(i0, i1, i2)` of a C-contiguous array with last dimensions `n1`, `n2`. -/
def flat (n1 n2 : ℕ) (i : Fin 3 → ℕ) : ℕ := (i 0 * n1 + i 1) * n2 + i 2

/-- Coefficients along `axis` through the entry `i`. -/
def line (n1 n2 : ℕ) (axis : Fin 3) (a : ℕ → ℂ) (i : Fin 3 → ℕ) (k : ℕ) : ℂ := a (flat n1 n2 (Function.update i axis k))

theorem mem_columns {n : Fin 3 → ℕ} {axis : Fin 3} {p : ℕ} :
    p ∈ columns (n 0) (n 1) (n 2) axis ↔ ∃ i : Fin 3 → ℕ, (∀ d, d ≠ axis → i d < n d) ∧ i axis = 0 ∧ p = flat (n 1) (n 2) i := by
  unfold flat
  fin_cases axis
  · simp only [columns, List.mem_flatMap, List.mem_range, List.mem_map]
    constructor
    · rintro ⟨j, hj, k, hk, rfl⟩
      refine ⟨![0, j, k], ?_, rfl, by simp⟩
      intro d hd; fin_cases d <;> simp_all
    · rintro ⟨i, hi, h0, rfl⟩
      simp at h0
      exact ⟨i 1, hi 1 (by decide), i 2, hi 2 (by decide), by simp [h0]⟩
  · simp only [columns, List.mem_flatMap, List.mem_range, List.mem_map]
    constructor
    · rintro ⟨j, hj, k, hk, rfl⟩
      refine ⟨![j, 0, k], ?_, rfl, by simp⟩
      intro d hd; fin_cases d <;> simp_all
    · rintro ⟨i, hi, h0, rfl⟩
      simp at h0
      exact ⟨i 0, hi 0 (by decide), i 2, hi 2 (by decide), by simp [h0]⟩
  · simp only [columns, List.mem_flatMap, List.mem_range, List.mem_map]
    constructor
    · rintro ⟨j, hj, k, hk, rfl⟩
      refine ⟨![j, k, 0], ?_, rfl, by simp⟩
      intro d hd; fin_cases d <;> simp_all
    · rintro ⟨i, hi, h0, rfl⟩
      simp at h0
      exact ⟨i 0, hi 0 (by decide), i 1, hi 1 (by decide), by simp [h0]⟩

theorem flat_line (n1 n2 : ℕ) (axis : Fin 3) (i : Fin 3 → ℕ) (h0 : i axis = 0) (k : ℕ) :
    flat n1 n2 (Function.update i axis k) = flat n1 n2 i + k * stride n1 n2 axis := by
  unfold flat stride
  fin_cases axis
  · simp at h0
    simp [h0]; ring
  · simp at h0
    simp [h0]; ring
  · simp at h0
    simp [h0]

theorem flat_inj {n : Fin 3 → ℕ} {i j : Fin 3 → ℕ} (hi : ∀ d, i d < n d) (hj : ∀ d, j d < n d) (h : flat (n 1) (n 2) i = flat (n 1) (n 2) j) : i = j := by
  unfold flat at h
  have i1 := hi 1; have i2 := hi 2; have j1 := hj 1; have j2 := hj 2
  have e2 : i 2 = j 2 := by
    have := congrArg (· % n 2) h
    simpa [Nat.add_mod, Nat.mod_eq_of_lt i2, Nat.mod_eq_of_lt j2] using this
  have e : i 0 * n 1 + i 1 = j 0 * n 1 + j 1 := Nat.eq_of_mul_eq_mul_right (by omega) (by omega : (i 0 * n 1 + i 1) * n 2 = (j 0 * n 1 + j 1) * n 2)
  have e1 : i 1 = j 1 := by
    have := congrArg (· % n 1) e
    simpa [Nat.add_mod, Nat.mod_eq_of_lt i1, Nat.mod_eq_of_lt j1] using this
  have e0 : i 0 = j 0 := Nat.eq_of_mul_eq_mul_right (by omega) (by omega : i 0 * n 1 = j 0 * n 1)
  funext d
  fin_cases d
  · exact e0
  · exact e1
  · exact e2

theorem fold_spec {N : ℕ} (hN : 4 ≤ N) {n : Fin 3 → ℕ} {axis : Fin 3} (hn : n axis = N) (hst : 0 < stride (n 1) (n 2) axis) (v w : ℕ → ℂ) (ps : List ℕ)
    (hps : ∀ p ∈ ps, ∃ i : Fin 3 → ℕ, (∀ d, d ≠ axis → i d < n d) ∧ i axis = 0 ∧ p = flat (n 1) (n 2) i) (b : (ℕ → ℂ) × (ℕ → ℂ))
    (q : Fin 3 → ℕ) (hq : ∀ d, d ≠ axis → q d < n d) (hq0 : q axis = 0) :
    let r := ps.foldl (fun b p => multCTD1D N v w b.1 b.2 p (stride (n 1) (n 2) axis)) b
    let a := flat (n 1) (n 2) q
    let st := stride (n 1) (n 2) axis
    if a ∈ ps then ∀ k < N, r.1 (a + k * st) = dcoef N (fun k => v (a + k * st)) k ∧ r.2 (a + k * st) = dcoef N (fun k => w (a + k * st)) k
    else ∀ k < N, r.1 (a + k * st) = b.1 (a + k * st) ∧ r.2 (a + k * st) = b.2 (a + k * st) := by
  intro r a st
  induction ps using List.reverseRecOn with
  | nil => simp [r]
  | append_singleton ps p ih =>
    have ih := ih fun p' hp' => hps p' (by simp [hp'])
    obtain ⟨i, hi, hi0, rfl⟩ := hps p (by simp)
    simp only at ih
    have hr : r = multCTD1D N v w (ps.foldl (fun b p => multCTD1D N v w b.1 b.2 p st) b).1 (ps.foldl (fun b p => multCTD1D N v w b.1 b.2 p st) b).2 (flat (n 1) (n 2) i) st := by
      simp [r, List.foldl_append]; rfl
    obtain ⟨⟨h1, h2⟩, h3, h4⟩ := multCTD1D_spec (p := flat (n 1) (n 2) i) hN hst v w (ps.foldl (fun b p => multCTD1D N v w b.1 b.2 p st) b).1 (ps.foldl (fun b p => multCTD1D N v w b.1 b.2 p st) b).2
    rw [← hr] at h1 h2 h3 h4
    by_cases hiq : i = q
    · subst hiq
      rw [if_pos (by simp [a])]
      exact fun k hk => ⟨h1 k hk, h3 k hk⟩
    · have hne : ∀ k < N, ∀ k' < N, a + k * st ≠ flat (n 1) (n 2) i + k' * st := by
        intro k hk k' hk' he
        rw [← flat_line _ _ axis q hq0, ← flat_line _ _ axis i hi0] at he
        have hb : ∀ (f : Fin 3 → ℕ), (∀ d, d ≠ axis → f d < n d) → ∀ k < N, ∀ d, Function.update f axis k d < n d := by
          intro f hf k hk d
          by_cases hd : d = axis
          · subst hd; rw [Function.update_self]; omega
          · rw [Function.update_of_ne hd]; exact hf d hd
        have := flat_inj (hb q hq k hk) (hb i hi k' hk') he
        refine hiq (funext fun d => ?_)
        by_cases hd : d = axis
        · subst hd; rw [hi0, hq0]
        · have := congrFun this d
          rw [Function.update_of_ne hd, Function.update_of_ne hd] at this
          exact this.symm
      have hmem : a ∈ ps ++ [flat (n 1) (n 2) i] ↔ a ∈ ps := by
        have := hne 0 (by omega) 0 (by omega)
        simp at this
        simp [this]
      have e : ∀ k < N, r.1 (a + k * st) = (ps.foldl (fun b p => multCTD1D N v w b.1 b.2 p st) b).1 (a + k * st) ∧ r.2 (a + k * st) = (ps.foldl (fun b p => multCTD1D N v w b.1 b.2 p st) b).2 (a + k * st) :=
        fun k hk => ⟨h2 _ (hne k hk), h4 _ (hne k hk)⟩
      by_cases hc : a ∈ ps
      · rw [if_pos (hmem.2 hc)]
        rw [if_pos hc] at ih
        exact fun k hk => ⟨(e k hk).1.trans (ih k hk).1, (e k hk).2.trans (ih k hk).2⟩
      · rw [if_neg (fun h => hc (hmem.1 h))]
        rw [if_neg hc] at ih
        exact fun k hk => ⟨(e k hk).1.trans (ih k hk).1, (e k hk).2.trans (ih k hk).2⟩

/-- **C38.** `Mult_CTD_3D_ptr` differentiates along any of the three axes: on every line of the array in the direction `axis`, the result
has the Chebyshev coefficients of the derivative of the function whose Dirichlet coefficients are the line of the input. -/
theorem C38_derivative_3D {N : ℕ} (hN : 4 ≤ N) (n : Fin 3 → ℕ) (axis : Fin 3) (hn : n axis = N) (v w bv bw : ℕ → ℂ)
    (i : Fin 3 → ℕ) (hi : ∀ d, i d < n d) :
    let r := multCTD3D N (n 0) (n 1) (n 2) axis v w bv bw
    series N (line (n 1) (n 2) axis r.1 i) = derivative (dirichlet N (line (n 1) (n 2) axis v i)) ∧
      series N (line (n 1) (n 2) axis r.2 i) = derivative (dirichlet N (line (n 1) (n 2) axis w i)) := by
  intro r
  have hst : 0 < stride (n 1) (n 2) axis := by
    have h1 := hi 1; have h2 := hi 2
    unfold stride
    fin_cases axis
    · exact Nat.mul_pos (by omega) (by omega)
    · show 0 < n 2; omega
    · exact one_pos
  set q := Function.update i axis 0 with hqd
  have hq : ∀ d, d ≠ axis → q d < n d := fun d hd => by rw [hqd, Function.update_of_ne hd]; exact hi d
  have hq0 : q axis = 0 := by rw [hqd, Function.update_self]
  have hl : ∀ a : ℕ → ℂ, line (n 1) (n 2) axis a i = fun k => a (flat (n 1) (n 2) q + k * stride (n 1) (n 2) axis) := by
    intro a
    funext k
    unfold line
    rw [← flat_line _ _ axis q hq0, hqd, Function.update_idem]
  have h := fold_spec hN hn hst v w (columns (n 0) (n 1) (n 2) axis) (fun p hp => mem_columns.1 hp) (bv, bw) q hq hq0
  simp only at h
  rw [if_pos (mem_columns.2 ⟨q, hq, hq0, rfl⟩)] at h
  rw [hl, hl, hl, hl, derivative_dirichlet N (by omega), derivative_dirichlet N (by omega)]
  exact ⟨sum_congr rfl fun k hk => by rw [← (h k (mem_range.1 hk)).1]; rfl, sum_congr rfl fun k hk => by rw [← (h k (mem_range.1 hk)).2]; rfl⟩

/-- The smallest case, `N = 4`, with a nonzero function: `v = T_1 - T_3`, `v' = 1 - 3 (4x² - 1) = -6 T_2 - 2 T_0`. -/
example : (multCTD1D 4 (fun i => if i = 1 then 1 else 0) 0 0 0 0 1).1 0 = -2 ∧
    (multCTD1D 4 (fun i => if i = 1 then 1 else 0) 0 0 0 0 1).1 2 = -6 := by
  norm_num [multCTD1D, down, Function.update]

end SpectralDNS.LUsolve

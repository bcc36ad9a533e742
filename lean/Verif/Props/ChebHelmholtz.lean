import Verif.Lemmas.ChebHelmholtz
import Verif.Props.LegPoisson

/-!
# C124: sandbox/nonhomogen_poisson.py computes the collocation solution, in one, two and four domains
-/

namespace SpectralDNS.ChebH

open Polynomial Finset Sandbox

open Leg (trial unitRow setBlock addBlock setPart addPart addBlock_eq addPart_eq block_sum)

variable {n m : ℕ} {pts w : ℕ → ℝ}

/-- The collocation solution is unique. -/
theorem collocation_unique (hn : 2 ≤ n) (hm : 1 ≤ m) (hL : Lobatto n pts w) {kx a b : ℝ} {f : ℕ → ℕ → ℝ} {u v : ℕ → ℝ[X]}
    (hu : Collocation n m pts kx a b f u) (hv : Collocation n m pts kx a b f v) : ∀ i < m, u i = v i := by
  have hn1 : 1 ≤ n := by omega
  have hsub : ∀ {u : ℕ → ℝ[X]} {U : ℕ → ℝ}, Collocation n m pts kx a b f u → (∀ i < m, u i = piece n m U i) → Collocation n m pts kx a b f (piece n m U) :=
    fun {u U} h e => ⟨piece_piecewise hn1 hm U, fun i hi => by rw [← e i (by omega), ← e (i + 1) hi]; exact h.smooth i hi, by rw [← e 0 (by omega), h.left],
      by rw [← e (m - 1) (by omega), h.right], fun i hi j h0 h1 => by rw [← e i hi]; exact h.equation i hi j h0 h1⟩
  obtain ⟨U, hU⟩ := exists_piece hn1 hm hu.pieces
  obtain ⟨W, hW⟩ := exists_piece hn1 hm hv.pieces
  have h1 := (solves_iff hn1 hm kx a b f U).2 (hsub hu hU)
  have h2 := (solves_iff hn1 hm kx a b f W).2 (hsub hv hW)
  have hp : ∀ i, poly n (fun k => U (n * i + k) - W (n * i + k)) = poly n (fun k => U (n * i + k)) - poly n fun k => W (n * i + k) := fun i => by
    simp only [poly, C_sub, sub_mul, sum_sub_distrib]
  have h3 : ∀ r ≤ n * m, U r - W r = 0 := solves_zero hn hm hL (kx := kx) (U := fun r => U r - W r) ⟨by simp only [h1.first, h2.first, sub_self],
    by simp only [h1.last, h2.last, sub_self], fun i hi => by
      simp only [hp, derivative_sub, eval_sub]
      rw [h1.smooth i hi, h2.smooth i hi], fun i hi j h0 hj => by
      simp only [hp, derivative_sub, eval_sub]
      linear_combination h1.inner i hi j h0 hj - h2.inner i hi j h0 hj⟩
  intro i hi
  rw [hU i hi, hW i hi, piece, piece]
  congr 1
  refine poly_congr fun k hk => sub_eq_zero.1 (h3 _ ?_)
  have hle : n * i + n ≤ n * m := by rw [← Nat.mul_succ]; exact Nat.mul_le_mul_left n hi
  omega

/-- A system with the rows of the script has exactly the solutions of the equations. -/
theorem rows_iff (hn : 1 ≤ n) (hm : 1 ≤ m) (hL : Lobatto n pts w) {kx a b : ℝ} {f : ℕ → ℕ → ℝ} {A : ℕ → ℕ → ℝ} {F : ℕ → ℝ}
    (hA0 : ∀ c ≤ n * m, A 0 c = if c = 0 then 1 else 0) (hA1 : ∀ c ≤ n * m, A (n * m) c = if c = n * m then 1 else 0)
    (hA : ∀ i < m, ∀ s, 0 < s → s < n → ∀ c ≤ n * m, A (n * i + s) c = if n * i ≤ c ∧ c ≤ n * i + n then localA n m pts w kx s (c - n * i) else 0)
    (hI : ∀ i, i + 1 < m → ∀ c ≤ n * m, A (n * (i + 1)) c = (if n * i ≤ c ∧ c ≤ n * i + n then right n (c - n * i) else 0) +
      if n * (i + 1) ≤ c ∧ c ≤ n * (i + 1) + n then -left n (c - n * (i + 1)) else 0)
    (hF0 : F 0 = a) (hF1 : F (n * m) = b) (hF : ∀ i < m, ∀ s, 0 < s → s < n → F (n * i + s) = scalar n pts w (f i) s)
    (hFI : ∀ i, i + 1 < m → F (n * (i + 1)) = 0) (U : ℕ → ℝ) :
    (∀ r < n * m + 1, ∑ c ∈ range (n * m + 1), A r c * U c = F r) ↔ Solves n m pts kx a b f U := by
  have row0 : ∑ c ∈ range (n * m + 1), A 0 c * U c = U 0 := by
    rw [sum_congr rfl fun c hc => by rw [hA0 c (by simpa [Nat.lt_succ_iff] using hc)]]
    simp
  have row1 : ∑ c ∈ range (n * m + 1), A (n * m) c * U c = U (n * m) := by
    rw [sum_congr rfl fun c hc => by rw [hA1 c (by simpa [Nat.lt_succ_iff] using hc)]]
    simp
  have row : ∀ i < m, ∀ s, 0 < s → s < n → ∑ c ∈ range (n * m + 1), A (n * i + s) c * U c = ∑ k ∈ range (n + 1), localA n m pts w kx s k * U (n * i + k) :=
    fun i hi s h0 h1 => by
      rw [← block_sum hi fun j r => localA n m pts w kx s j * U r]
      refine sum_congr rfl fun c hc => ?_
      rw [hA i hi s h0 h1 c (by simpa [Nat.lt_succ_iff] using hc)]
      split_ifs <;> simp
  have rowI : ∀ i, i + 1 < m → ∑ c ∈ range (n * m + 1), A (n * (i + 1)) c * U c =
      (derivative (poly n fun k => U (n * i + k))).eval 1 - (derivative (poly n fun k => U (n * (i + 1) + k))).eval (-1) := fun i hi => by
    have e1 : (derivative (poly n fun k => U (n * i + k))).eval 1 = ∑ k ∈ range (n + 1), right n k * U (n * i + k) := by
      refine (poly_map (slopeAt 1) _).trans (sum_congr rfl fun k hk => ?_)
      rw [right_eq hn k (by simpa [Nat.lt_succ_iff] using hk)]
      rfl
    have e2 : (derivative (poly n fun k => U (n * (i + 1) + k))).eval (-1) = ∑ k ∈ range (n + 1), left n k * U (n * (i + 1) + k) := by
      refine (poly_map (slopeAt (-1)) _).trans (sum_congr rfl fun k hk => ?_)
      rw [left_eq hn k (by simpa [Nat.lt_succ_iff] using hk)]
      rfl
    rw [e1, e2, ← block_sum (by omega : i < m) fun j r => right n j * U r, ← block_sum hi fun j r => left n j * U r, ← sum_sub_distrib]
    refine sum_congr rfl fun c hc => ?_
    rw [hI i hi c (by simpa [Nat.lt_succ_iff] using hc)]
    split_ifs <;> ring
  have hle : ∀ i < m, n * i + n ≤ n * m := fun i hi => by rw [← Nat.mul_succ]; exact Nat.mul_le_mul_left n hi
  constructor
  · intro h
    refine ⟨by rw [← row0, h 0 (by omega), hF0], by rw [← row1, h _ (by omega), hF1], fun i hi => ?_, fun i hi => ?_⟩
    · have := hle (i + 1) hi
      rw [← sub_eq_zero, ← rowI i hi, h _ (by omega), hFI i hi]
    · refine (local_iff hn hL kx (f i) fun k => U (n * i + k)).1 fun s h0 h1 => ?_
      have := hle i hi
      rw [← row i hi s h0 h1, h _ (by omega), hF i hi s h0 h1]
  · intro h r hr
    by_cases h0 : r = 0
    · rw [h0, row0, hF0, h.first]
    by_cases h1 : r = n * m
    · rw [h1, row1, hF1, h.last]
    have hi : r / n < m := Nat.div_lt_of_lt_mul (by omega)
    have hr' := Nat.div_add_mod r n
    by_cases hs : r % n = 0
    · obtain ⟨i, hi'⟩ : ∃ i, r / n = i + 1 := Nat.exists_eq_add_one_of_ne_zero fun h => by
        rw [h, hs] at hr'
        exact h0 hr'.symm
      rw [hs, hi', add_zero] at hr'
      rw [hi'] at hi
      rw [← hr', rowI i hi, hFI i hi, h.smooth i hi, sub_self]
    · rw [← hr', row _ hi _ (by omega) (Nat.mod_lt r (by omega)), hF _ hi _ (by omega) (Nat.mod_lt r (by omega))]
      exact (local_iff hn hL kx (f (r / n)) fun k => U (n * (r / n) + k)).2 (h.inner _ hi) _ (by omega) (Nat.mod_lt r (by omega))

/-- Such a system can be solved, and its solution solves the equations. -/
theorem system_solves (hn : 2 ≤ n) (hm : 1 ≤ m) (hL : Lobatto n pts w) {kx a b : ℝ} {f : ℕ → ℕ → ℝ} {A : ℕ → ℕ → ℝ} {F : ℕ → ℝ} {N : ℕ}
    (hN : N = n * m + 1)
    (hA0 : ∀ c ≤ n * m, A 0 c = if c = 0 then 1 else 0) (hA1 : ∀ c ≤ n * m, A (n * m) c = if c = n * m then 1 else 0)
    (hA : ∀ i < m, ∀ s, 0 < s → s < n → ∀ c ≤ n * m, A (n * i + s) c = if n * i ≤ c ∧ c ≤ n * i + n then localA n m pts w kx s (c - n * i) else 0)
    (hI : ∀ i, i + 1 < m → ∀ c ≤ n * m, A (n * (i + 1)) c = (if n * i ≤ c ∧ c ≤ n * i + n then right n (c - n * i) else 0) +
      if n * (i + 1) ≤ c ∧ c ≤ n * (i + 1) + n then -left n (c - n * (i + 1)) else 0)
    (hF0 : F 0 = a) (hF1 : F (n * m) = b) (hF : ∀ i < m, ∀ s, 0 < s → s < n → F (n * i + s) = scalar n pts w (f i) s)
    (hFI : ∀ i, i + 1 < m → F (n * (i + 1)) = 0) :
    (Matrix.of fun i j : Fin N => A i j).det ≠ 0 ∧ Solves n m pts kx a b f (linsolve N A F) := by
  subst hN
  have hn1 : 1 ≤ n := by omega
  have hdet : (Matrix.of fun i j : Fin (n * m + 1) => A i j).det ≠ 0 := by
    intro hdet
    obtain ⟨v, hv, h0⟩ := Matrix.exists_mulVec_eq_zero_iff.2 hdet
    apply hv
    let W : ℕ → ℝ := fun r => if h : r < n * m + 1 then v ⟨r, h⟩ else 0
    have hrow : ∀ r < n * m + 1, ∑ c ∈ range (n * m + 1), A r c * W c = 0 := fun r hr => by
      have := congrFun h0 ⟨r, hr⟩
      simp only [Matrix.mulVec, dotProduct, Matrix.of_apply, Pi.zero_apply] at this
      rw [← this, Finset.sum_range]
      exact sum_congr rfl fun c _ => by simp only [W, dif_pos c.2]
    have := solves_zero hn hm hL ((rows_iff (f := fun _ _ => 0) (F := fun _ => 0) hn1 hm hL hA0 hA1 hA hI rfl rfl
      (fun _ _ _ _ _ => by simp [scalar]) (fun _ _ => rfl) W).1 hrow)
    funext r
    have h1 := this r (by omega)
    simpa only [W, dif_pos r.2, Pi.zero_apply] using h1
  exact ⟨hdet, (rows_iff hn1 hm hL hA0 hA1 hA hI hF0 hF1 hF hFI _).1 ((linsolve_spec _ A F hdet (linsolve (n * m + 1) A F)).2 fun _ _ => rfl)⟩

/-! ## The systems of the script -/

theorem systemOne_solves (hn : 2 ≤ n) (hL : Lobatto n pts w) (kx a b : ℝ) (fj : ℕ → ℝ) :
    (Matrix.of fun i j : Fin (n + 1) => (systemOne n pts w kx a b fj).1 i j).det ≠ 0 ∧
      Solves n 1 pts kx a b (fun _ => fj) (linsolve (n + 1) (systemOne n pts w kx a b fj).1 (systemOne n pts w kx a b fj).2) := by
  refine system_solves (m := 1) hn le_rfl hL (by ring) (fun c hc => ?_) (fun c hc => ?_) (fun i hi s h0 h1 c hc => ?_) (fun i hi => by omega) ?_ ?_
    (fun i hi s h0 h1 => ?_) (fun i hi => by omega)
  · simp [systemOne, unitRow, show (0 : ℕ) ≠ n by omega]
  · simp [systemOne, unitRow]
  · obtain rfl : i = 0 := by omega
    rw [mul_one] at hc
    simp [systemOne, unitRow, h0.ne', h1.ne, localA, hc]
  · simp [systemOne, Function.update_of_ne, show (0 : ℕ) ≠ n by omega]
  · simp [systemOne]
  · obtain rfl : i = 0 := by omega
    simp [systemOne, Function.update_of_ne, h0.ne', h1.ne]

theorem systemTwo_solves (hn : 2 ≤ n) (hL : Lobatto n pts w) (kx a b : ℝ) (fj : ℕ → ℕ → ℝ) :
    (Matrix.of fun i j : Fin (2 * n + 1) => (systemTwo n pts w kx a b fj).1 i j).det ≠ 0 ∧
      Solves n 2 pts kx a b fj (linsolve (2 * n + 1) (systemTwo n pts w kx a b fj).1 (systemTwo n pts w kx a b fj).2) := by
  have hl : ∀ x y, K n pts w x y * 2 ^ 2 + kx ^ 2 * M n pts w x y = localA n 2 pts w kx x y := fun x y => by simp [localA]
  refine system_solves (m := 2) hn (by omega) hL (by ring) (fun c hc => ?_) (fun c hc => ?_) (fun i hi s h0 h1 c hc => ?_) (fun i hi c hc => ?_) ?_ ?_
    (fun i hi s h0 h1 => ?_) (fun i hi => ?_)
  · simp only [systemTwo, setBlock, addBlock]
    split_ifs <;> first | rfl | omega
  · simp only [systemTwo, setBlock, addBlock]
    split_ifs <;> first | rfl | omega
  · simp only [systemTwo, hl]
    generalize localA n 2 pts w kx = g
    obtain rfl | rfl : i = 0 ∨ i = 1 := by omega
    all_goals
      rw [addBlock, if_neg (by omega), setBlock, if_neg (by omega), setBlock, if_neg (by omega), setBlock, if_neg (by omega)]
      simp only [setBlock]
      split_ifs <;> first | omega | rfl | exact congrArg₂ g (by omega) (by omega)
  · obtain rfl : i = 0 := by omega
    simp only [systemTwo, addBlock_eq]
    congr 1
    · simp only [setBlock]
      split_ifs <;> first | omega | rfl | exact congrArg (right n) (by omega)
    · split_ifs <;> first | omega | rfl | exact congrArg (fun k => -left n k) (by omega)
  · simp only [systemTwo]
    rw [Function.update_of_ne (by omega), Function.update_of_ne (by omega), Function.update_self]
  · simp only [systemTwo]
    rw [Function.update_of_ne (by omega), mul_comm n 2, Function.update_self]
  · simp only [systemTwo]
    rw [Function.update_of_ne (by rcases (by omega : i = 0 ∨ i = 1) with rfl | rfl <;> omega),
      Function.update_of_ne (by rcases (by omega : i = 0 ∨ i = 1) with rfl | rfl <;> omega), Function.update_of_ne (by omega), addPart_eq, setPart]
    obtain rfl | rfl : i = 0 ∨ i = 1 := by omega
    · rw [if_pos (by omega), if_neg (by omega), add_zero]
      congr 1
      omega
    · rw [if_neg (by omega), if_pos (by omega), zero_add]
      congr 1
      omega
  · obtain rfl : i = 0 := by omega
    simp only [systemTwo]
    rw [show n * (0 + 1) = n by ring, Function.update_self]

theorem systemFour_inner (kx a b : ℝ) (fj : ℕ → ℕ → ℝ) (i : ℕ) (hi : i < 4) (s : ℕ) (h0 : 0 < s) (h1 : s < n) (c : ℕ) (hc : c ≤ n * 4) :
    (systemFour n pts w kx a b fj).1 (n * i + s) c = if n * i ≤ c ∧ c ≤ n * i + n then localA n 4 pts w kx s (c - n * i) else 0 := by
  have hl : ∀ x y, K n pts w x y * 4 ^ 2 + kx ^ 2 * M n pts w x y = localA n 4 pts w kx x y := fun x y => by simp [localA]
  simp only [systemFour, hl]
  generalize localA n 4 pts w kx = g
  obtain rfl | rfl | rfl | rfl : i = 0 ∨ i = 1 ∨ i = 2 ∨ i = 3 := by omega
  all_goals
    rw [addBlock, if_neg (by omega), setBlock, if_neg (by omega), addBlock, if_neg (by omega), setBlock, if_neg (by omega), addBlock, if_neg (by omega),
      setBlock, if_neg (by omega), setBlock, if_neg (by omega), setBlock, if_neg (by omega), setBlock, if_neg (by omega), setBlock, if_neg (by omega)]
    simp only [setBlock]
    split_ifs <;> first | omega | rfl | exact congrArg₂ g (by omega) (by omega)

theorem systemFour_interface (kx a b : ℝ) (fj : ℕ → ℕ → ℝ) (hn : 2 ≤ n) (i : ℕ) (hi : i + 1 < 4) (c : ℕ) (hc : c ≤ n * 4) :
    (systemFour n pts w kx a b fj).1 (n * (i + 1)) c = (if n * i ≤ c ∧ c ≤ n * i + n then right n (c - n * i) else 0) +
      if n * (i + 1) ≤ c ∧ c ≤ n * (i + 1) + n then -left n (c - n * (i + 1)) else 0 := by
  simp only [systemFour]
  obtain rfl | rfl | rfl : i = 0 ∨ i = 1 ∨ i = 2 := by omega
  · rw [addBlock, if_neg (by omega), setBlock, if_neg (by omega), addBlock, if_neg (by omega), setBlock, if_neg (by omega), addBlock_eq]
    congr 1
    · by_cases h : n * 0 ≤ c ∧ c ≤ n * 0 + n
      · rw [if_pos h, setBlock, if_pos (by omega)]
        exact congrArg (right n) (by omega)
      · rw [if_neg h, setBlock, if_neg (by omega), setBlock, if_neg (by omega), setBlock, if_neg (by omega), setBlock, if_pos (by omega)]
    · split_ifs <;> first | omega | rfl | exact congrArg (fun k => -left n k) (by omega)
  · rw [addBlock, if_neg (by omega), setBlock, if_neg (by omega), addBlock_eq]
    congr 1
    · by_cases h : n * 1 ≤ c ∧ c ≤ n * 1 + n
      · rw [if_pos h, setBlock, if_pos (by omega)]
        exact congrArg (right n) (by omega)
      · rw [if_neg h, setBlock, if_neg (by omega), addBlock, if_neg (by omega), setBlock, if_neg (by omega), setBlock, if_neg (by omega), setBlock, if_pos (by omega)]
    · split_ifs <;> first | omega | rfl | exact congrArg (fun k => -left n k) (by omega)
  · rw [addBlock_eq]
    congr 1
    · by_cases h : n * 2 ≤ c ∧ c ≤ n * 2 + n
      · rw [if_pos h, setBlock, if_pos (by omega)]
        exact congrArg (right n) (by omega)
      · rw [if_neg h, setBlock, if_neg (by omega), addBlock, if_neg (by omega), setBlock, if_neg (by omega), addBlock, if_neg (by omega), setBlock, if_neg (by omega), setBlock, if_pos (by omega)]
    · split_ifs <;> first | omega | rfl | exact congrArg (fun k => -left n k) (by omega)

theorem systemFour_solves (hn : 2 ≤ n) (hL : Lobatto n pts w) (kx a b : ℝ) (fj : ℕ → ℕ → ℝ) :
    (Matrix.of fun i j : Fin (4 * n + 1) => (systemFour n pts w kx a b fj).1 i j).det ≠ 0 ∧
      Solves n 4 pts kx a b fj (linsolve (4 * n + 1) (systemFour n pts w kx a b fj).1 (systemFour n pts w kx a b fj).2) := by
  refine system_solves (m := 4) hn (by omega) hL (by ring) (fun c hc => ?_) (fun c hc => ?_) (fun i hi s h0 h1 c hc => ?_) (fun i hi c hc => ?_) ?_ ?_
    (fun i hi s h0 h1 => ?_) (fun i hi => ?_)
  · simp only [systemFour]
    rw [addBlock, if_neg (by omega), setBlock, if_neg (by omega), addBlock, if_neg (by omega), setBlock, if_neg (by omega), addBlock, if_neg (by omega),
      setBlock, if_neg (by omega), setBlock, if_neg (by omega), setBlock, if_neg (by omega), setBlock, if_neg (by omega), setBlock, if_neg (by omega)]
    simp only [setBlock]
    split_ifs <;> first | rfl | omega
  · simp only [systemFour]
    rw [addBlock, if_neg (by omega), setBlock, if_neg (by omega), addBlock, if_neg (by omega), setBlock, if_neg (by omega), addBlock, if_neg (by omega),
      setBlock, if_neg (by omega), setBlock, if_neg (by omega), setBlock, if_neg (by omega), setBlock, if_neg (by omega)]
    simp only [setBlock]
    split_ifs <;> first | rfl | omega
  · exact systemFour_inner kx a b fj i hi s h0 h1 c hc
  · exact systemFour_interface kx a b fj hn i hi c hc
  · simp only [systemFour]
    rw [Function.update_of_ne (by omega), Function.update_of_ne (by omega), Function.update_of_ne (by omega), Function.update_of_ne (by omega),
      Function.update_self]
  · simp only [systemFour]
    rw [Function.update_of_ne (by omega), Function.update_of_ne (by omega), Function.update_of_ne (by omega), mul_comm n 4, Function.update_self]
  · simp only [systemFour]
    obtain rfl | rfl | rfl | rfl : i = 0 ∨ i = 1 ∨ i = 2 ∨ i = 3 := by omega
    all_goals
      rw [Function.update_of_ne (by omega), Function.update_of_ne (by omega), Function.update_of_ne (by omega), Function.update_of_ne (by omega),
        Function.update_of_ne (by omega)]
    · rw [addPart, if_neg (by omega), addPart, if_neg (by omega), addPart, if_neg (by omega), setPart, if_pos (by omega)]
      congr 1
      omega
    · rw [addPart, if_neg (by omega), addPart, if_neg (by omega), addPart, if_pos (by omega), setPart, if_neg (by omega), zero_add]
      congr 1
      omega
    · rw [addPart, if_neg (by omega), addPart, if_pos (by omega), addPart, if_neg (by omega), setPart, if_neg (by omega), zero_add]
      congr 1
      omega
    · rw [addPart, if_pos (by omega), addPart, if_neg (by omega), addPart, if_neg (by omega), setPart, if_neg (by omega), zero_add]
      congr 1
      omega
  · simp only [systemFour]
    obtain rfl | rfl | rfl : i = 0 ∨ i = 1 ∨ i = 2 := by omega
    · rw [show n * (0 + 1) = n by ring, Function.update_of_ne (by omega), Function.update_of_ne (by omega), Function.update_self]
    · rw [show n * (1 + 1) = 2 * n by ring, Function.update_of_ne (by omega), Function.update_self]
    · rw [show n * (2 + 1) = 3 * n by ring, Function.update_self]

/-! ## The results of the script -/

/-- C124: the points of the script are those of the intervals. -/
theorem C124_points (hm : m = 1 ∨ m = 2 ∨ m = 4) (i j : ℕ) (hi : i < m) : xx m pts i j = Leg.point m pts i j := by
  unfold xx Leg.point Leg.node
  rcases hm with rfl | rfl | rfl
  · obtain rfl : i = 0 := by omega
    simp
  · norm_num
    ring
  · norm_num
    ring

/-- What is claimed of the values `uq` that are computed from `kx`, `a`, `b` and the values of the right-hand side at the points. -/
structure Computes (n m : ℕ) (pts : ℕ → ℝ) (uq : ℝ → ℝ → ℝ → (ℕ → ℕ → ℝ) → ℕ → ℕ → ℝ) : Prop where
  /-- The values of the collocation solution, which exists and is unique. -/
  collocation : ∀ kx a b f, ∃ u, Collocation n m pts kx a b f u ∧ (∀ v, Collocation n m pts kx a b f v → ∀ i < m, v i = u i) ∧
    ∀ i < m, ∀ j ≤ n, uq kx a b f i j = (u i).eval (xx m pts i j)
  /-- No error if the solution is a piecewise polynomial with a continuous derivative. -/
  exact : ∀ kx f u, Leg.Piecewise n m u → Leg.Smooth m u →
    (∀ i < m, ∀ j, 0 < j → j < n → f i j = -(derivative (derivative (u i))).eval (xx m pts i j) + kx ^ 2 * (u i).eval (xx m pts i j)) →
    ∀ i < m, ∀ j ≤ n, uq kx ((u 0).eval (-1)) ((u (m - 1)).eval 1) f i j = (u i).eval (xx m pts i j)

theorem computes_of (hn : 2 ≤ n) (hm : m = 1 ∨ m = 2 ∨ m = 4) (hL : Lobatto n pts w) {uq : ℝ → ℝ → ℝ → (ℕ → ℕ → ℝ) → ℕ → ℕ → ℝ}
    (h : ∀ kx a b f, ∃ U, Solves n m pts kx a b f U ∧ ∀ i < m, ∀ j ≤ n, uq kx a b f i j = backward n pts (fun k => U (n * i + k)) j) :
    Computes n m pts uq := by
  have hm1 : 1 ≤ m := by omega
  have hn1 : 1 ≤ n := by omega
  have hpt : ∀ (U : ℕ → ℝ) i j, (piece n m U i).eval (Leg.point m pts i j) = backward n pts (fun k => U (n * i + k)) j := fun U i j => by
    rw [piece_eval, Leg.arg_point hm1, poly_eval hn1]
  refine ⟨fun kx a b f => ?_, fun kx f u hu hs hf i hi j hj => ?_⟩
  · obtain ⟨U, h1, h2⟩ := h kx a b f
    have h3 := (solves_iff hn1 hm1 kx a b f U).1 h1
    exact ⟨_, h3, fun v hv => collocation_unique hn hm1 hL hv h3, fun i hi j hj => by rw [h2 i hi j hj, C124_points hm i j hi, hpt]⟩
  · obtain ⟨U, h1, h2⟩ := h kx ((u 0).eval (-1)) ((u (m - 1)).eval 1) f
    have h3 := (solves_iff hn1 hm1 _ _ _ f U).1 h1
    have h4 : Collocation n m pts kx ((u 0).eval (-1)) ((u (m - 1)).eval 1) f u := ⟨hu, hs, rfl, rfl, fun i hi j h0 h1 => by
      rw [hf i hi j h0 h1, C124_points hm i j hi]⟩
    rw [h2 i hi j hj, collocation_unique hn hm1 hL h4 h3 i hi, C124_points hm i j hi, hpt]

/-- C124: none of the three matrices is singular. -/
theorem C124_solvable (hn : 2 ≤ n) (hL : Lobatto n pts w) (kx a b : ℝ) (fj : ℕ → ℝ) (fi : ℕ → ℕ → ℝ) :
    (Matrix.of fun i j : Fin (n + 1) => (systemOne n pts w kx a b fj).1 i j).det ≠ 0 ∧
    (Matrix.of fun i j : Fin (2 * n + 1) => (systemTwo n pts w kx a b fi).1 i j).det ≠ 0 ∧
    (Matrix.of fun i j : Fin (4 * n + 1) => (systemFour n pts w kx a b fi).1 i j).det ≠ 0 :=
  ⟨(systemOne_solves hn hL kx a b fj).1, (systemTwo_solves hn hL kx a b fi).1, (systemFour_solves hn hL kx a b fi).1⟩

/-- C124: one domain. -/
theorem C124_one (hn : 2 ≤ n) (hL : Lobatto n pts w) : Computes n 1 pts fun kx a b f _ => uqOne n pts w kx a b (f 0) :=
  computes_of hn (Or.inl rfl) hL fun kx a b f => ⟨_, by
    have := (systemOne_solves hn hL kx a b (f 0)).2
    exact ⟨this.first, this.last, this.smooth, fun i hi j h0 h1 => by
      obtain rfl : i = 0 := by omega
      exact this.inner 0 hi j h0 h1⟩, fun i hi j hj => by
    obtain rfl : i = 0 := by omega
    simp [uqOne]⟩

/-- C124: two domains. -/
theorem C124_two (hn : 2 ≤ n) (hL : Lobatto n pts w) : Computes n 2 pts (uqTwo n pts w) :=
  computes_of hn (by omega) hL fun kx a b f => ⟨_, (systemTwo_solves hn hL kx a b f).2, fun i hi j hj => by
    obtain rfl | rfl : i = 0 ∨ i = 1 := by omega
    · simp [uqTwo]
    · simp [uqTwo]⟩

/-- C124: four domains. -/
theorem C124_four (hn : 2 ≤ n) (hL : Lobatto n pts w) : Computes n 4 pts (uqFour n pts w) :=
  computes_of hn (by omega) hL fun kx a b f => ⟨_, (systemFour_solves hn hL kx a b f).2, fun i hi j hj => by simp [uqFour]⟩

/-- The points and weights as documented. -/
theorem lobatto_documented (hn : 1 ≤ n) :
    Lobatto n (fun j => Real.cos (Real.pi * j / n)) fun j => if j = 0 ∨ j = n then Real.pi / (2 * n) else Real.pi / n := by
  have := Real.pi_pos
  have : (0 : ℝ) < n := by positivity
  exact ⟨Or.inl fun _ _ => rfl, fun j _ => by split_ifs <;> positivity⟩

/-- With five points and the number `kx = sqrt 5` of the script: `u = x^4`, so that `f = -12 x^2 + 5 x^4`, is computed without error, in one domain and in four. -/
example (j : ℕ) (hj : j ≤ 4) :
    let pts : ℕ → ℝ := fun j => Real.cos (Real.pi * j / (4 : ℕ))
    let w : ℕ → ℝ := fun j => if j = 0 ∨ j = 4 then Real.pi / (2 * (4 : ℕ)) else Real.pi / (4 : ℕ)
    let x : ℕ → ℕ → ℝ := fun i j => 0.25 * pts j + (2 * i - 3) * 0.25
    uqOne 4 pts w (√5) 1 1 (fun j => -12 * pts j ^ 2 + 5 * pts j ^ 4) j = pts j ^ 4 ∧
      uqFour 4 pts w (√5) 1 1 (fun i j => -12 * x i j ^ 2 + 5 * x i j ^ 4) 2 j = x 2 j ^ 4 := by
  intro pts w x
  have hs : √(5 : ℝ) ^ 2 = 5 := Real.sq_sqrt (by norm_num)
  have hL : Lobatto 4 pts w := lobatto_documented (by omega)
  have h1 := (C124_one (by omega) hL).exact (√5) (fun _ j => -12 * pts j ^ 2 + 5 * pts j ^ 4) (fun _ => X ^ 4) ⟨fun _ _ => by simp, fun _ _ => rfl⟩ (fun _ _ => rfl)
    (fun i _ j _ _ => by rw [hs]; simp [xx]; ring) 0 (by omega) j hj
  have h2 := (C124_four (by omega) hL).exact (√5) (fun i j => -12 * x i j ^ 2 + 5 * x i j ^ 4) (fun _ => X ^ 4) ⟨fun _ _ => by simp, fun _ _ => rfl⟩
    (fun _ _ => rfl) (fun i _ j _ _ => by rw [hs]; simp [xx, x]; ring) 2 (by omega) j hj
  have e : ((-1 : ℝ)) ^ 4 = 1 := by norm_num
  simp only [eval_pow, eval_X, one_pow, e] at h1 h2
  exact ⟨by rw [h1]; simp [xx], by rw [h2]; simp [xx, x]⟩

end SpectralDNS.ChebH

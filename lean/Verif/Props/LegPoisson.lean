import Verif.Lemmas.LegPoisson

/-!
# C112: sandbox/nonhomogen_poisson_leg.py computes the Galerkin approximation, in one, two and four domains
-/

namespace SpectralDNS.Leg

open Polynomial Finset Sandbox

variable {n m : ℕ} {pts w : ℕ → ℝ}

/-- The Galerkin approximation is unique. -/
theorem galerkin_unique (hn : 1 ≤ n) (hm : 1 ≤ m) (hR : Rule n pts w) {kx a b : ℝ} {f : ℕ → ℕ → ℝ} {u v : ℕ → ℝ[X]}
    (hu : Galerkin n m pts w kx a b f u) (hv : Galerkin n m pts w kx a b f v) : ∀ i < m, u i = v i := by
  have hsub : ∀ {u : ℕ → ℝ[X]} {U : ℕ → ℝ}, Galerkin n m pts w kx a b f u → (∀ i < m, u i = piece n m U i) → Galerkin n m pts w kx a b f (piece n m U) :=
    fun {u U} h e => ⟨piece_piecewise hn hm U, by rw [← e 0 (by omega), h.left], by rw [← e (m - 1) (by omega), h.right], fun v hv h0 h1 => by
      rw [← h.weak v hv h0 h1]
      exact sum_congr rfl fun i hi => by rw [e i (mem_range.1 hi)]⟩
  obtain ⟨U, hU⟩ := exists_piece hn hm hR hu.pieces
  obtain ⟨W, hW⟩ := exists_piece hn hm hR hv.pieces
  have h1 := (solves_iff hn hm hR kx a b f U).2 (hsub hu hU)
  have h2 := (solves_iff hn hm hR kx a b f W).2 (hsub hv hW)
  have h3 : ∀ r ≤ n * m, U r - W r = 0 := solves_zero hn hm hR kx (fun r => U r - W r) ⟨by simp only [h1.first, h2.first, sub_self],
    by simp only [h1.last, h2.last, sub_self], fun r h0 hr => by
      simp only [mul_sub, sum_sub_distrib]
      rw [h1.inner r h0 hr, h2.inner r h0 hr, sub_self]
      simp [gluedF, scalar]⟩
  intro i hi
  rw [hU i hi, hW i hi, piece, piece]
  congr 1
  refine poly_congr fun k hk => sub_eq_zero.1 (h3 _ ?_)
  have hle : n * i + n ≤ n * m := by rw [← Nat.mul_succ]; exact Nat.mul_le_mul_left n hi
  omega

/-- A system which has the rows of the assembled one can be solved, and its solution solves the equations. -/
theorem system_solves (hn : 1 ≤ n) (hm : 1 ≤ m) (hR : Rule n pts w) {kx a b : ℝ} {f : ℕ → ℕ → ℝ} {A : ℕ → ℕ → ℝ} {F : ℕ → ℝ} {N : ℕ} (hN : N = n * m + 1)
    (hA0 : ∀ c ≤ n * m, A 0 c = if c = 0 then 1 else 0) (hA1 : ∀ c ≤ n * m, A (n * m) c = if c = n * m then 1 else 0)
    (hA : ∀ r, 0 < r → r < n * m → ∀ c ≤ n * m, A r c = gluedA n m (localA n m pts w kx) r c)
    (hF0 : F 0 = a) (hF1 : F (n * m) = b) (hF : ∀ r, 0 < r → r < n * m → F r = gluedF n m (fun i => scalar n pts w (f i)) r) :
    (Matrix.of fun i j : Fin N => A i j).det ≠ 0 ∧ Solves n m pts w kx a b f (linsolve N A F) := by
  subst hN
  have row0 : ∀ U : ℕ → ℝ, ∑ c ∈ range (n * m + 1), A 0 c * U c = U 0 := fun U => by
    rw [sum_congr rfl fun c hc => by rw [hA0 c (by simpa [Nat.lt_succ_iff] using hc)]]
    simp
  have row1 : ∀ U : ℕ → ℝ, ∑ c ∈ range (n * m + 1), A (n * m) c * U c = U (n * m) := fun U => by
    rw [sum_congr rfl fun c hc => by rw [hA1 c (by simpa [Nat.lt_succ_iff] using hc)]]
    simp
  have row : ∀ (U : ℕ → ℝ) r, 0 < r → r < n * m → ∑ c ∈ range (n * m + 1), A r c * U c = ∑ c ∈ range (n * m + 1), gluedA n m (localA n m pts w kx) r c * U c :=
    fun U r h0 h1 => sum_congr rfl fun c hc => by rw [hA r h0 h1 c (by simpa [Nat.lt_succ_iff] using hc)]
  have hdet : (Matrix.of fun i j : Fin (n * m + 1) => A i j).det ≠ 0 := by
    intro hdet
    obtain ⟨v, hv, h0⟩ := Matrix.exists_mulVec_eq_zero_iff.2 hdet
    apply hv
    let U : ℕ → ℝ := fun r => if h : r < n * m + 1 then v ⟨r, h⟩ else 0
    have hrow : ∀ r < n * m + 1, ∑ c ∈ range (n * m + 1), A r c * U c = 0 := fun r hr => by
      have := congrFun h0 ⟨r, hr⟩
      simp only [Matrix.mulVec, dotProduct, Matrix.of_apply, Pi.zero_apply] at this
      rw [← this, Finset.sum_range]
      exact sum_congr rfl fun c _ => by simp only [U, dif_pos c.2]
    have := solves_zero hn hm hR kx U ⟨by rw [← row0 U]; exact hrow 0 (by omega), by rw [← row1 U]; exact hrow _ (by omega), fun r h0 h1 => by
      rw [← row U r h0 h1, hrow r (by omega)]
      simp [gluedF, scalar]⟩
    funext r
    have h1 := this r (by omega)
    simpa only [U, dif_pos r.2, Pi.zero_apply] using h1
  refine ⟨hdet, ?_⟩
  have hs := (linsolve_spec _ A F hdet (linsolve (n * m + 1) A F)).2 fun _ _ => rfl
  refine ⟨?_, ?_, fun r h0 h1 => ?_⟩
  · rw [← hF0, ← hs 0 (by omega), row0]
  · rw [← hF1, ← hs (n * m) (by omega), row1]
  · rw [← hF r h0 h1, ← hs r (by omega), row _ r h0 h1]

/-! ## The systems of the script -/

theorem addBlock_eq (r0 r1 c0 c1 : ℕ) (B A : ℕ → ℕ → ℝ) (r c : ℕ) :
    addBlock r0 r1 c0 c1 B A r c = A r c + if r0 ≤ r ∧ r < r1 ∧ c0 ≤ c ∧ c < c1 then B (r - r0) (c - c0) else 0 := by
  unfold addBlock
  split_ifs <;> simp

theorem addPart_eq (r0 r1 : ℕ) (g f : ℕ → ℝ) (r : ℕ) : addPart r0 r1 g f r = f r + if r0 ≤ r ∧ r < r1 then g (r - r0) else 0 := by
  unfold addPart
  split_ifs <;> simp

theorem system1_solves (hn : 1 ≤ n) (hR : Rule n pts w) (kx a b : ℝ) (fj : ℕ → ℝ) :
    (Matrix.of fun i j : Fin (n + 1) => (system1 n pts w kx a b fj).1 i j).det ≠ 0 ∧
      Solves n 1 pts w kx a b (fun _ => fj) (u_hat1 n pts w kx a b fj) := by
  refine system_solves (m := 1) hn le_rfl hR (by ring) (fun c hc => ?_) (fun c hc => ?_) (fun r h0 h1 c hc => ?_) ?_ ?_ fun r h0 h1 => ?_
  · simp [system1, unitRow, show (0 : ℕ) ≠ n by omega]
  · simp [system1, unitRow]
  · rw [mul_one] at h1 hc
    simp [system1, unitRow, h0.ne', h1.ne, gluedA, localA, h1.le, hc]
  · simp [system1, Function.update_of_ne, show (0 : ℕ) ≠ n by omega]
  · simp [system1]
  · rw [mul_one] at h1
    simp [system1, Function.update_of_ne, h0.ne', h1.ne, gluedF, h1.le]

theorem systemTwo_solves (hn : 1 ≤ n) (hR : Rule n pts w) (kx a b : ℝ) (fj : ℕ → ℕ → ℝ) :
    (Matrix.of fun i j : Fin (2 * n + 1) => (systemTwo n pts w kx a b fj).1 i j).det ≠ 0 ∧
      Solves n 2 pts w kx a b fj (linsolve (2 * n + 1) (systemTwo n pts w kx a b fj).1 (systemTwo n pts w kx a b fj).2) := by
  refine system_solves (m := 2) hn (by omega) hR (by ring) (fun c hc => ?_) (fun c hc => ?_) (fun r h0 h1 c hc => ?_) ?_ ?_ fun r h0 h1 => ?_
  · simp only [systemTwo, setBlock, addBlock]
    split_ifs <;> first | rfl | omega
  · simp only [systemTwo, setBlock, addBlock]
    split_ifs <;> first | rfl | omega
  · have ho : r = n ∨ r ≠ n := by omega
    have hl : ∀ x y, K n pts w x y * 2 ^ 2 + kx ^ 2 * M n pts w x y = localA n 2 pts w kx x y := fun x y => by simp [localA]
    simp only [systemTwo, gluedA, sum_range_succ, range_zero, sum_empty, zero_add, addBlock_eq, setBlock, hl]
    generalize localA n 2 pts w kx = g
    rcases ho with rfl | hr
    · congr 1
      · split_ifs <;> first | omega | rfl | exact congrArg₂ g (by omega) (by omega)
      · split_ifs <;> first | omega | rfl | exact congrArg₂ g (by omega) (by omega)
    · rw [if_neg (by omega : ¬(n ≤ r ∧ r < n + 1 ∧ n ≤ c ∧ c < 2 * n + 1)), if_neg (by omega : ¬(n ≤ r ∧ r < n + 1 ∧ 0 ≤ c ∧ c < n + 1)), 
        if_neg (by omega : ¬(n ≤ r ∧ r < n + 1 ∧ 0 ≤ c ∧ c < 2 * n + 1)), if_neg (by omega : ¬(2 * n ≤ r ∧ r < 2 * n + 1 ∧ 2 * n ≤ c ∧ c < 2 * n + 1)), add_zero]
      rcases lt_or_gt_of_ne hr with hr | hr
      · rw [if_neg (by omega : ¬((n * 1 ≤ r ∧ r ≤ n * 1 + n) ∧ n * 1 ≤ c ∧ c ≤ n * 1 + n)), add_zero]
        split_ifs <;> first | omega | rfl | exact congrArg₂ g (by omega) (by omega)
      · rw [if_neg (by omega : ¬((n * 0 ≤ r ∧ r ≤ n * 0 + n) ∧ n * 0 ≤ c ∧ c ≤ n * 0 + n)), zero_add]
        split_ifs <;> first | omega | rfl | exact congrArg₂ g (by omega) (by omega)
  · simp [systemTwo, Function.update_of_ne, show (0 : ℕ) ≠ 2 * n by omega]
  · simp [systemTwo, mul_comm n 2]
  · simp only [systemTwo, gluedF, sum_range_succ, range_zero, sum_empty, zero_add]
    rw [Function.update_of_ne (by omega), Function.update_of_ne (by omega), addPart_eq, setPart]
    congr 1 <;> split_ifs <;> first | omega | rfl | (congr 1 <;> omega)

theorem systemFour_solves (hn : 1 ≤ n) (hR : Rule n pts w) (kx a b : ℝ) (fj : ℕ → ℕ → ℝ) :
    (Matrix.of fun i j : Fin (4 * n + 1) => (systemFour n pts w kx a b fj).1 i j).det ≠ 0 ∧
      Solves n 4 pts w kx a b fj (linsolve (4 * n + 1) (systemFour n pts w kx a b fj).1 (systemFour n pts w kx a b fj).2) := by
  refine system_solves (m := 4) hn (by omega) hR (by ring) (fun c hc => ?_) (fun c hc => ?_) (fun r h0 h1 c hc => ?_) ?_ ?_ fun r h0 h1 => ?_
  · simp only [systemFour, setBlock, addBlock]
    split_ifs <;> first | rfl | omega
  · simp only [systemFour, setBlock, addBlock]
    split_ifs <;> first | rfl | omega
  · have hl : ∀ x y, K n pts w x y * 4 ^ 2 + kx ^ 2 * M n pts w x y = localA n 4 pts w kx x y := fun x y => by simp [localA]
    simp only [systemFour, gluedA, sum_range_succ, range_zero, sum_empty, zero_add, hl]
    generalize localA n 4 pts w kx = g
    rw [setBlock, if_neg (by omega), addBlock_eq, addBlock_eq, addBlock_eq, setBlock, setBlock]
    congr 1
    · congr 1
      · congr 1
        · split_ifs <;> first | omega | rfl | exact congrArg₂ g (by omega) (by omega)
        · split_ifs <;> first | omega | rfl | exact congrArg₂ g (by omega) (by omega)
      · split_ifs <;> first | omega | rfl | exact congrArg₂ g (by omega) (by omega)
    · split_ifs <;> first | omega | rfl | exact congrArg₂ g (by omega) (by omega)
  · simp [systemFour, Function.update_of_ne, show (0 : ℕ) ≠ 4 * n by omega]
  · simp [systemFour, mul_comm n 4]
  · simp only [systemFour, gluedF, sum_range_succ, range_zero, sum_empty, zero_add]
    rw [Function.update_of_ne (by omega), Function.update_of_ne (by omega), addPart_eq, addPart_eq, addPart_eq, setPart]
    congr 1
    · congr 1
      · congr 1 <;> split_ifs <;> first | omega | rfl | (congr 1 <;> omega)
      · split_ifs <;> first | omega | rfl | (congr 1 <;> omega)
    · split_ifs <;> first | omega | rfl | (congr 1 <;> omega)

/-! ## The second way in one domain -/

theorem M_symm (r c : ℕ) : M n pts w r c = M n pts w c r := sum_congr rfl fun j _ => by ring

theorem K_symm (r c : ℕ) : K n pts w r c = K n pts w c r := sum_congr rfl fun j _ => by ring

theorem M_exact (hn : 1 ≤ n) (hR : Rule n pts w) {r c : ℕ} (hr : r ≤ n) (hc : c ≤ n) : M n pts w r c = ∫ x in (-1 : ℝ)..1, (phi n r).eval x * (phi n c).eval x := by
  have h1 := phi_degree hn r hr
  have h2 := phi_degree hn c hc
  simp only [← eval_mul]
  rw [← hR.exact _ (natDegree_mul_le.trans (by omega)), M]
  exact sum_congr rfl fun j _ => by rw [P_eq, P_eq, eval_mul]; ring

theorem K_exact (hn : 1 ≤ n) (hR : Rule n pts w) {r c : ℕ} (hr : r ≤ n) (hc : c ≤ n) :
    K n pts w r c = ∫ x in (-1 : ℝ)..1, (derivative (phi n r)).eval x * (derivative (phi n c)).eval x := by
  have h1 := phi_degree hn r hr
  have h2 := phi_degree hn c hc
  have h3 := natDegree_derivative_le (phi n r)
  have h4 := natDegree_derivative_le (phi n c)
  simp only [← eval_mul]
  rw [← hR.exact _ (natDegree_mul_le.trans (by omega)), K]
  exact sum_congr rfl fun j _ => by rw [Px_eq hn j r hr, Px_eq hn j c hc, eval_mul]; ring

/-- The stiffness matrix does not couple the linear functions with the others. -/
theorem K_end (hn : 1 ≤ n) (hR : Rule n pts w) {r e : ℕ} (h0 : 0 < r) (h1 : r < n) (he : e = 0 ∨ e = n) : K n pts w r e = 0 := by
  rw [K_exact hn hR h1.le (by omega)]
  have hc : ∃ s : ℝ, ∀ x, (derivative (phi n e)).eval x = s := by
    unfold phi
    rcases he with rfl | rfl
    · rw [if_neg (by omega), if_neg (by omega)]
      exact ⟨-(1 / 2), fun x => by simp [legendre, derivative_C_mul]⟩
    · rw [if_pos rfl]
      exact ⟨1 / 2, fun x => by simp [legendre, derivative_C_mul]⟩
  obtain ⟨s, hs⟩ := hc
  simp only [hs]
  rw [intervalIntegral.integral_mul_const, integral_derivative, phi_right hn r h1.le, phi_left hn r h1.le, if_neg h1.ne, if_neg h0.ne']
  simp

/-- The mass matrix couples them with two functions only. -/
theorem M_end (hn : 1 ≤ n) (hR : Rule n pts w) {r e : ℕ} (h0 : 3 ≤ r) (h1 : r < n) (he : e = 0 ∨ e = n) : M n pts w r e = 0 := by
  rw [M_exact hn hR h1.le (by omega)]
  obtain ⟨k, rfl⟩ : ∃ k, r = k + 3 := ⟨r - 3, by omega⟩
  have hc : ∃ s t : ℝ, ∀ x, (phi n e).eval x = s + t * x := by
    unfold phi
    rcases he with rfl | rfl
    · rw [if_neg (by omega), if_neg (by omega)]
      exact ⟨1 / 2, -(1 / 2), fun x => by simp [legendre]; ring⟩
    · rw [if_pos rfl]
      exact ⟨1 / 2, 1 / 2, fun x => by simp [legendre]; ring⟩
  obtain ⟨s, t, hs⟩ := hc
  have e : ∀ x, (phi n (k + 3)).eval x * (phi n e).eval x = (s * (legendre (k + 2)).eval x + t * (x * (legendre (k + 2)).eval x)) -
      (s * (legendre (k + 4)).eval x + t * (x * (legendre (k + 4)).eval x)) := fun x => by
    rw [hs, phi, if_neg h1.ne, if_pos (by omega)]
    simp only [eval_sub, Nat.add_sub_cancel]
    rw [show k + 3 - 1 = k + 2 from rfl]
    ring
  have hi : ∀ k, IntervalIntegrable (fun x => s * (legendre k).eval x) MeasureTheory.volume (-1) 1 := fun k =>
    ((Polynomial.continuous _).const_mul _).intervalIntegrable _ _
  have hj : ∀ k, IntervalIntegrable (fun x => t * (x * (legendre k).eval x)) MeasureTheory.volume (-1) 1 := fun k =>
    ((continuous_id.mul (Polynomial.continuous _)).const_mul _).intervalIntegrable _ _
  simp only [e]
  rw [intervalIntegral.integral_sub ((hi _).add (hj _)) ((hi _).add (hj _)), intervalIntegral.integral_add (hi _) (hj _), intervalIntegral.integral_add (hi _) (hj _)]
  simp only [intervalIntegral.integral_const_mul, integral_leg, integral_X_leg]
  simp

theorem row_one (hn : 1 ≤ n) {kx a b : ℝ} {fj U : ℕ → ℝ} (h : Solves n 1 pts w kx a b (fun _ => fj) U) {r : ℕ} (h0 : 0 < r) (h1 : r < n) :
    ∑ c ∈ range (n + 1), (K n pts w r c + kx ^ 2 * M n pts w r c) * U c = scalar n pts w fj r := by
  have := h.inner r h0 (by omega)
  simp only [mul_one, gluedF, range_one, sum_singleton, mul_zero, zero_add, Nat.zero_le, true_and, h1.le, if_true, Nat.sub_zero] at this
  rw [← this]
  refine sum_congr rfl fun c hc => ?_
  have hc' : c ≤ n := by simpa [Nat.lt_succ_iff] using hc
  simp [gluedA, localA, h1.le, hc']

theorem range_ends (hn : 1 ≤ n) (F : ℕ → ℝ) : ∑ c ∈ range (n + 1), F c = F 0 + ∑ c ∈ range (n - 1), F (c + 1) + F n := by
  obtain ⟨k, rfl⟩ : ∃ k, n = k + 1 := ⟨n - 1, by omega⟩
  rw [sum_range_succ, sum_range_succ', Nat.add_sub_cancel]
  ring

/-- The system of the second way has the inner equations of the first, with the known coefficients moved to the right. -/
theorem system2_rhs (hn : 1 ≤ n) (hR : Rule n pts w) (kx a b : ℝ) (fj : ℕ → ℝ) {r : ℕ} (hr : r < n - 1) :
    (system2 n pts w kx a b fj).2 r = scalar n pts w fj (r + 1) - ((K n pts w (r + 1) 0 + kx ^ 2 * M n pts w (r + 1) 0) * a +
      (K n pts w (r + 1) n + kx ^ 2 * M n pts w (r + 1) n) * b) := by
  rw [K_end hn hR (by omega) (by omega) (Or.inl rfl), K_end hn hR (by omega) (by omega) (Or.inr rfl)]
  simp only [system2]
  rcases r with _ | _ | r
  · rw [Function.update_of_ne (by omega), zero_add, Function.update_self, M_symm 0, M_symm n]
    ring
  · rw [zero_add, Function.update_self, Function.update_of_ne (by omega), M_symm 0, M_symm n]
    ring
  · rw [Function.update_of_ne (by omega), Function.update_of_ne (by omega), M_end hn hR (by omega) (by omega) (Or.inl rfl),
      M_end hn hR (by omega) (by omega) (Or.inr rfl)]
    ring

theorem system2_solves (hn : 1 ≤ n) (hR : Rule n pts w) (kx a b : ℝ) (fj : ℕ → ℝ) :
    (Matrix.of fun i j : Fin (n - 1) => (system2 n pts w kx a b fj).1 i j).det ≠ 0 ∧ ∀ k ≤ n, u_hat2 n pts w kx a b fj k = u_hat1 n pts w kx a b fj k := by
  have hdet : (Matrix.of fun i j : Fin (n - 1) => (system2 n pts w kx a b fj).1 i j).det ≠ 0 := by
    intro hdet
    obtain ⟨v, hv, h0⟩ := Matrix.exists_mulVec_eq_zero_iff.2 hdet
    apply hv
    let U : ℕ → ℝ := fun r => if h : 0 < r ∧ r < n then v ⟨r - 1, by omega⟩ else 0
    have hU0 : U 0 = 0 := by simp [U]
    have hUn : U n = 0 := by simp [U]
    have := solves_zero hn le_rfl hR kx U ⟨hU0, by rw [mul_one, hUn], fun r h1 h2 => by
      rw [mul_one] at h2
      have := congrFun h0 ⟨r - 1, by omega⟩
      simp only [Matrix.mulVec, dotProduct, Matrix.of_apply, Pi.zero_apply, system2] at this
      rw [show gluedF n 1 (fun i => scalar n pts w ((fun _ _ => 0 : ℕ → ℕ → ℝ) i)) r = 0 by simp [gluedF, scalar], ← this, mul_one, range_ends hn, hU0, hUn,
        Finset.sum_range]
      simp only [mul_zero, zero_add, add_zero]
      refine sum_congr rfl fun c _ => ?_
      have hc := c.2
      have e : U (c + 1) = v c := by
        simp only [U]
        rw [dif_pos ⟨by omega, by omega⟩]
        rfl
      rw [e]
      congr 1
      have h3 : (c : ℕ) < n := by omega
      simp [gluedA, localA, h2.le, h3, show r - 1 + 1 = r by omega]⟩
    funext r
    have hr := r.2
    have h1 := this (r + 1) (by omega)
    simp only [U] at h1
    rw [dif_pos ⟨by omega, by omega⟩] at h1
    exact h1
  refine ⟨hdet, ?_⟩
  obtain ⟨-, h1⟩ := system1_solves hn hR kx a b fj
  have hb : u_hat1 n pts w kx a b fj n = b := by simpa using h1.last
  have hin : ∀ k < n - 1, linsolve (n - 1) (system2 n pts w kx a b fj).1 (system2 n pts w kx a b fj).2 k = u_hat1 n pts w kx a b fj (k + 1) := by
    refine (linsolve_spec _ _ _ hdet fun k => u_hat1 n pts w kx a b fj (k + 1)).1 fun r hr => ?_
    have h2 := row_one hn h1 (r := r + 1) (by omega) (by omega)
    rw [range_ends hn, h1.first, hb] at h2
    rw [system2_rhs hn hR kx a b fj hr, ← h2]
    simp only [system2]
    ring
  intro k hk
  simp only [u_hat2]
  by_cases hkn : k = n
  · rw [hkn, Function.update_self, hb]
  · rw [Function.update_of_ne hkn]
    by_cases hk0 : k = 0
    · rw [hk0, Function.update_self, h1.first]
    · rw [Function.update_of_ne hk0, setPart, if_pos ⟨by omega, by omega⟩, hin (k - 1) (by omega), Nat.sub_add_cancel (by omega)]

/-! ## Smooth solutions -/

/-- A piecewise polynomial with a continuous derivative that solves the equation is the Galerkin approximation. -/
theorem strong_galerkin (hn : 1 ≤ n) (hm : 1 ≤ m) (hR : Rule n pts w) {kx : ℝ} {u : ℕ → ℝ[X]} (hu : Piecewise n m u) (hs : Smooth m u) (f : ℕ → ℕ → ℝ)
    (hf : ∀ i < m, ∀ j ≤ n, f i j = -(derivative (derivative (u i))).eval (point m pts i j) + kx ^ 2 * (u i).eval (point m pts i j)) :
    Galerkin n m pts w kx ((u 0).eval (-1)) ((u (m - 1)).eval 1) f u := by
  have hm0 : (m : ℝ) ≠ 0 := by positivity
  refine ⟨hu, rfl, rfl, fun v hv h0 h1 => ?_⟩
  have hq : ∀ i < m, ∑ j ∈ range (n + 1), w j / m * (f i j * (v i).eval (point m pts i j)) =
      ∫ x in node m i..node m (i + 1), ((-(derivative (derivative (u i))) + C (kx ^ 2) * u i) * v i).eval x := fun i hi => by
    let Q : ℝ[X] := ((-(derivative (derivative (u i))) + C (kx ^ 2) * u i) * v i).comp (C (1 / (m : ℝ)) * X + C (node m i + 1 / m))
    have hQ : Q.natDegree ≤ 2 * n + 1 := by
      rw [natDegree_comp]
      have h2 : (C (1 / (m : ℝ)) * X + C (node m i + 1 / m)).natDegree ≤ 1 := natDegree_linear_le
      have h3 := hu.degree i hi
      have h4 := hv.degree i hi
      have h5 := natDegree_derivative_le (u i)
      have h6 := natDegree_derivative_le (derivative (u i))
      have h7 : (-(derivative (derivative (u i))) + C (kx ^ 2) * u i).natDegree ≤ n := by
        refine (natDegree_add_le _ _).trans (max_le ?_ ((natDegree_C_mul_le _ _).trans h3))
        rw [natDegree_neg]
        omega
      calc _ ≤ (n + n) * 1 := Nat.mul_le_mul (natDegree_mul_le.trans (by omega)) h2
        _ ≤ _ := by omega
    have e1 := hR.exact Q hQ
    have e2 : ∀ x, Q.eval x = ((-(derivative (derivative (u i))) + C (kx ^ 2) * u i) * v i).eval (1 / (m : ℝ) * x + (node m i + 1 / m)) := fun x => by
      simp only [Q, eval_comp, eval_add, eval_mul, eval_C, eval_X]
    simp only [e2] at e1
    rw [intervalIntegral.integral_comp_mul_add (fun y => ((-(derivative (derivative (u i))) + C (kx ^ 2) * u i) * v i).eval y) (one_div_ne_zero hm0)] at e1
    have a1 : 1 / (m : ℝ) * -1 + (node m i + 1 / m) = node m i := by ring
    have a2 : 1 / (m : ℝ) * 1 + (node m i + 1 / m) = node m (i + 1) := by
      simp only [node]
      push_cast
      field_simp
      ring
    rw [a1, a2, one_div, inv_inv, smul_eq_mul] at e1
    have e3 : ∑ j ∈ range (n + 1), w j / m * (f i j * (v i).eval (point m pts i j)) =
        (m : ℝ)⁻¹ * ∑ j ∈ range (n + 1), w j * ((-(derivative (derivative (u i))) + C (kx ^ 2) * u i) * v i).eval ((m : ℝ)⁻¹ * pts j + (node m i + (m : ℝ)⁻¹)) := by
      rw [mul_sum]
      refine sum_congr rfl fun j hj => ?_
      rw [hf i hi j (by simpa [Nat.lt_succ_iff] using hj), show (m : ℝ)⁻¹ * pts j + (node m i + (m : ℝ)⁻¹) = point m pts i j by rw [point]; ring]
      simp only [eval_add, eval_mul, eval_C, eval_neg]
      ring
    rw [e3, e1, ← mul_assoc, inv_mul_cancel₀ hm0, one_mul]
  have hp : ∀ i, ∫ x in node m i..node m (i + 1), ((derivative (u i)).eval x * (derivative (v i)).eval x + kx ^ 2 * ((u i).eval x * (v i).eval x)) =
      (∫ x in node m i..node m (i + 1), ((-(derivative (derivative (u i))) + C (kx ^ 2) * u i) * v i).eval x) +
        ((derivative (u i) * v i).eval (node m (i + 1)) - (derivative (u i) * v i).eval (node m i)) := fun i => by
    rw [← integral_derivative, ← intervalIntegral.integral_add ((Polynomial.continuous _).intervalIntegrable _ _) ((Polynomial.continuous _).intervalIntegrable _ _)]
    refine intervalIntegral.integral_congr fun x _ => ?_
    simp only [derivative_mul, eval_add, eval_mul, eval_C, eval_neg]
    ring
  rw [sum_congr rfl fun i hi => hq i (mem_range.1 hi)]
  simp only [hp, sum_add_distrib]
  rw [add_eq_left]
  have ht : ∀ k ≤ m, 1 ≤ k → ∑ i ∈ range k, ((derivative (u i) * v i).eval (node m (i + 1)) - (derivative (u i) * v i).eval (node m i)) =
      (derivative (u (k - 1)) * v (k - 1)).eval (node m k) := by
    intro k
    induction k with
    | zero => intro _ h; omega
    | succ k ih =>
      intro hk _
      rw [sum_range_succ, Nat.add_sub_cancel]
      rcases Nat.eq_zero_or_pos k with rfl | hk0
      · simp [node_zero, h0]
      · rw [ih (by omega) hk0]
        obtain ⟨l, rfl⟩ : ∃ l, k = l + 1 := ⟨k - 1, by omega⟩
        rw [Nat.add_sub_cancel, eval_mul (p := derivative (u l)), hs l (by omega), hv.cont l (by omega), ← eval_mul]
        ring
  rw [ht m le_rfl hm, node_last hm, eval_mul, h1, mul_zero]

/-! ## C112 -/

/-- The points of the script are the quadrature points of the intervals. -/
theorem C112_points (hm : m = 1 ∨ m = 2 ∨ m = 4) (i j : ℕ) (hi : i < m) : xx m pts i j = point m pts i j := by
  unfold xx point node
  rcases hm with rfl | rfl | rfl
  · obtain rfl : i = 0 := by omega
    simp
  · norm_num
    ring
  · norm_num
    ring

/-- What each of the four solutions returns at the points. -/
structure Computes (n m : ℕ) (pts w : ℕ → ℝ) (uq : ℝ → ℝ → ℝ → (ℕ → ℕ → ℝ) → ℕ → ℕ → ℝ) : Prop where
  /-- The values of the Galerkin approximation, which exists and is unique. -/
  galerkin : ∀ kx a b f, ∃ u, Galerkin n m pts w kx a b f u ∧ (∀ v, Galerkin n m pts w kx a b f v → ∀ i < m, v i = u i) ∧
    ∀ i < m, ∀ j ≤ n, uq kx a b f i j = (u i).eval (xx m pts i j)
  /-- No error if the solution is a piecewise polynomial with a continuous derivative. -/
  exact : ∀ kx f u, Piecewise n m u → Smooth m u →
    (∀ i < m, ∀ j ≤ n, f i j = -(derivative (derivative (u i))).eval (xx m pts i j) + kx ^ 2 * (u i).eval (xx m pts i j)) →
    ∀ i < m, ∀ j ≤ n, uq kx ((u 0).eval (-1)) ((u (m - 1)).eval 1) f i j = (u i).eval (xx m pts i j)

theorem computes_of (hn : 1 ≤ n) (hm : m = 1 ∨ m = 2 ∨ m = 4) (hR : Rule n pts w) {uq : ℝ → ℝ → ℝ → (ℕ → ℕ → ℝ) → ℕ → ℕ → ℝ}
    (h : ∀ kx a b f, ∃ U, Solves n m pts w kx a b f U ∧ ∀ i < m, ∀ j ≤ n, uq kx a b f i j = backward n pts (fun k => U (n * i + k)) j) : Computes n m pts w uq := by
  have hm1 : 1 ≤ m := by omega
  refine ⟨fun kx a b f => ?_, fun kx f u hu hs hf i hi j hj => ?_⟩
  · obtain ⟨U, h1, h2⟩ := h kx a b f
    have h3 := (solves_iff hn hm1 hR kx a b f U).1 h1
    exact ⟨_, h3, fun v hv => galerkin_unique hn hm1 hR hv h3, fun i hi j hj => by rw [h2 i hi j hj, C112_points hm i j hi, piece_point hm1]⟩
  · obtain ⟨U, h1, h2⟩ := h kx ((u 0).eval (-1)) ((u (m - 1)).eval 1) f
    have h3 := (solves_iff hn hm1 hR _ _ _ f U).1 h1
    have h4 := strong_galerkin hn hm1 hR hu hs f fun i hi j hj => by rw [hf i hi j hj, C112_points hm i j hi]
    rw [h2 i hi j hj, galerkin_unique hn hm1 hR h4 h3 i hi, C112_points hm i j hi, piece_point hm1]

/-- C112: none of the four matrices is singular. -/
theorem C112_solvable (hn : 1 ≤ n) (hR : Rule n pts w) (kx a b : ℝ) (fj : ℕ → ℝ) (fi : ℕ → ℕ → ℝ) :
    (Matrix.of fun i j : Fin (n + 1) => (system1 n pts w kx a b fj).1 i j).det ≠ 0 ∧
    (Matrix.of fun i j : Fin (n - 1) => (system2 n pts w kx a b fj).1 i j).det ≠ 0 ∧
    (Matrix.of fun i j : Fin (2 * n + 1) => (systemTwo n pts w kx a b fi).1 i j).det ≠ 0 ∧
    (Matrix.of fun i j : Fin (4 * n + 1) => (systemFour n pts w kx a b fi).1 i j).det ≠ 0 :=
  ⟨(system1_solves hn hR kx a b fj).1, (system2_solves hn hR kx a b fj).1, (systemTwo_solves hn hR kx a b fi).1, (systemFour_solves hn hR kx a b fi).1⟩

/-- C112: one domain. -/
theorem C112_one (hn : 1 ≤ n) (hR : Rule n pts w) : Computes n 1 pts w fun kx a b f _ => uq1 n pts w kx a b (f 0) :=
  computes_of hn (Or.inl rfl) hR fun kx a b f => ⟨_, by
    have := (system1_solves hn hR kx a b (f 0)).2
    refine ⟨this.first, this.last, fun r h0 h1 => ?_⟩
    rw [this.inner r h0 h1]
    simp [gluedF], fun i hi j hj => by
    obtain rfl : i = 0 := by omega
    simp [uq1]⟩

/-- C112: the second way in one domain gives the same numbers. -/
theorem C112_alternative (hn2 : 2 ≤ n) (hR : Rule n pts w) (kx a b : ℝ) (fj : ℕ → ℝ) :
    (∀ k ≤ n, u_hat2 n pts w kx a b fj k = u_hat1 n pts w kx a b fj k) ∧ uq2 n pts w kx a b fj = uq1 n pts w kx a b fj := by
  have h := (system2_solves (by omega : 1 ≤ n) hR kx a b fj).2
  refine ⟨h, _root_.funext fun j => ?_⟩
  unfold uq2 uq1 backward
  exact sum_congr rfl fun k hk => by rw [h k (by simpa [Nat.lt_succ_iff] using hk)]

/-- C112: two domains. -/
theorem C112_two (hn : 1 ≤ n) (hR : Rule n pts w) : Computes n 2 pts w (uqTwo n pts w) :=
  computes_of hn (by omega) hR fun kx a b f => ⟨_, (systemTwo_solves hn hR kx a b f).2, fun i hi j hj => by
    obtain rfl | rfl : i = 0 ∨ i = 1 := by omega
    · simp [uqTwo]
    · simp [uqTwo]⟩

/-- C112: four domains. -/
theorem C112_four (hn : 1 ≤ n) (hR : Rule n pts w) : Computes n 4 pts w (uqFour n pts w) :=
  computes_of hn (by omega) hR fun kx a b f => ⟨_, (systemFour_solves hn hR kx a b f).2, fun i hi j hj => by simp [uqFour]⟩

/-- Gauss quadrature with three points. -/
theorem rule_three : Rule 2 (fun j => if j = 0 then -√(3 / 5) else if j = 1 then 0 else √(3 / 5)) (fun j => if j = 1 then 8 / 9 else 5 / 9) := by
  have hs : √(3 / 5 : ℝ) ^ 2 = 3 / 5 := Real.sq_sqrt (by norm_num)
  have hp : 0 < √(3 / 5 : ℝ) := Real.sqrt_pos.2 (by norm_num)
  generalize √(3 / 5 : ℝ) = g at *
  refine ⟨fun j _ => by split_ifs <;> norm_num, fun i hi j hj h => ?_, fun p hp => ?_⟩
  · interval_cases i <;> interval_cases j <;> simp at h ⊢ <;> linarith
  · have e : ∀ x, p.eval x = ∑ i ∈ range 6, p.coeff i * x ^ i := fun x => eval_eq_sum_range' (by omega) x
    simp only [e]
    rw [intervalIntegral.integral_finsetSum fun i _ => (Continuous.intervalIntegrable (by fun_prop) _ _)]
    simp only [intervalIntegral.integral_const_mul, integral_pow, sum_range_succ, range_zero, sum_empty, zero_add]
    norm_num
    linear_combination (10 / 9 * p.coeff 2 + 10 / 9 * p.coeff 4 * (g ^ 2 + 3 / 5)) * hs

/-- With three points: `u = x^2`, so that `f = -2 + kx^2 x^2`, is computed without error, in one domain and in two. -/
example (kx : ℝ) (j : ℕ) (hj : j ≤ 2) :
    let pts : ℕ → ℝ := fun j => if j = 0 then -√(3 / 5) else if j = 1 then 0 else √(3 / 5)
    let w : ℕ → ℝ := fun j => if j = 1 then 8 / 9 else 5 / 9
    uq1 2 pts w kx 1 1 (fun j => -2 + kx ^ 2 * pts j ^ 2) j = pts j ^ 2 ∧
      uqTwo 2 pts w kx 1 1 (fun i j => -2 + kx ^ 2 * (0.5 * pts j - 0.5 + i) ^ 2) 0 j = (0.5 * pts j - 0.5 + 0) ^ 2 := by
  intro pts w
  have h1 := (C112_one (by omega) rule_three).exact kx (fun i j => -2 + kx ^ 2 * pts j ^ 2) (fun _ => X ^ 2) ⟨fun _ _ => by simp, fun _ _ => rfl⟩ (fun _ _ => rfl)
    (fun i _ j _ => by simp [xx, pts]; ring) 0 (by omega) j hj
  have h2 := (C112_two (by omega) rule_three).exact kx (fun i j => -2 + kx ^ 2 * (0.5 * pts j - 0.5 + i) ^ 2) (fun _ => X ^ 2) ⟨fun _ _ => by simp, fun _ _ => rfl⟩
    (fun _ _ => rfl) (fun i _ j _ => by simp [xx, pts]; ring) 0 (by omega) j hj
  simp only [eval_pow, eval_X, one_pow, even_two, Even.neg_pow] at h1 h2
  exact ⟨by rw [h1]; simp [xx, pts], by rw [h2]; simp [xx, pts]⟩

end SpectralDNS.Leg

import Verif.Lemmas.Legendre
import Verif.Lemmas.ChebPoisson
import Verif.Spec.LegPoisson
import Mathlib.MeasureTheory.Integral.IntervalIntegral.IntegrationByParts

/-! # The systems of sandbox/nonhomogen_poisson_leg.py -/

namespace SpectralDNS.Leg

open Polynomial Finset Sandbox

variable {n m : ℕ} {pts w : ℕ → ℝ}

/-- The basis. -/
noncomputable def phi (n k : ℕ) : ℝ[X] :=
  if k = n then C (1 / 2) * (legendre 0 + legendre 1) else if 1 ≤ k then legendre (k - 1) - legendre (k + 1) else C (1 / 2) * (legendre 0 - legendre 1)

theorem P_eq (j k : ℕ) : P n pts j k = (phi n k).eval (pts j) := by
  unfold P trial phi V
  split_ifs <;> simp <;> ring

theorem Vx_eq (k : ℕ) (hk : k ≤ n) (j : ℕ) : Vx n pts j k = (derivative (legendre k)).eval (pts j) := by
  rw [← sum_D1 k n hk, eval_finsetSum, Vx]
  exact sum_congr rfl fun i _ => by rw [eval_mul, eval_C, V]; ring

theorem Px_eq (hn : 1 ≤ n) (j k : ℕ) (hk : k ≤ n) : Px n pts j k = (derivative (phi n k)).eval (pts j) := by
  unfold Px trial phi
  split_ifs with h1 h2
  · rw [Vx_eq 0 (by omega), Vx_eq 1 hn, derivative_C_mul, derivative_add]
    simp
    ring
  · rw [Vx_eq _ (by omega), Vx_eq (k + 1) (by omega), derivative_sub, eval_sub]
  · rw [Vx_eq 0 (by omega), Vx_eq 1 hn, derivative_C_mul, derivative_sub]
    simp
    ring

theorem phi_degree (hn : 1 ≤ n) (k : ℕ) (hk : k ≤ n) : (phi n k).natDegree ≤ n := by
  unfold phi
  have h0 := leg_degree_le 0
  have h1 := leg_degree_le 1
  split_ifs with h2 h3
  · exact (natDegree_C_mul_le _ _).trans ((natDegree_add_le _ _).trans (by omega))
  · have h4 := leg_degree_le (k - 1)
    have h5 := leg_degree_le (k + 1)
    exact (natDegree_sub_le _ _).trans (by omega)
  · exact (natDegree_C_mul_le _ _).trans ((natDegree_sub_le _ _).trans (by omega))

theorem phi_left (hn : 1 ≤ n) (k : ℕ) (hk : k ≤ n) : (phi n k).eval (-1) = if k = 0 then 1 else 0 := by
  unfold phi
  split_ifs with h2 h3 h3 h4 h5
  · omega
  · simp [leg_neg_one]
  · omega
  · obtain ⟨k, rfl⟩ : ∃ l, k = l + 1 := ⟨k - 1, by omega⟩
    simp [leg_neg_one, pow_succ]
  · simp [leg_neg_one]
    norm_num
  · omega

theorem phi_right (hn : 1 ≤ n) (k : ℕ) (hk : k ≤ n) : (phi n k).eval 1 = if k = n then 1 else 0 := by
  unfold phi
  split_ifs with h2 h3
  · simp [leg_one]; norm_num
  · simp [leg_one]
  · simp [leg_one]

/-- The polynomial with coefficients `c`. -/
noncomputable def poly (n : ℕ) (c : ℕ → ℝ) : ℝ[X] := ∑ k ∈ range (n + 1), C (c k) * phi n k

theorem poly_degree (hn : 1 ≤ n) (c : ℕ → ℝ) : (poly n c).natDegree ≤ n :=
  natDegree_sum_le_of_forall_le _ _ fun k hk => (natDegree_C_mul_le _ _).trans (phi_degree hn k (by simpa [Nat.lt_succ_iff] using hk))

theorem poly_left (hn : 1 ≤ n) (c : ℕ → ℝ) : (poly n c).eval (-1) = c 0 := by
  rw [poly, eval_finsetSum, sum_eq_single 0]
  · rw [eval_mul, phi_left hn 0 (by omega)]; simp
  · intro k hk h
    rw [eval_mul, phi_left hn k (by simpa [Nat.lt_succ_iff] using hk), if_neg h, mul_zero]
  · simp

theorem poly_right (hn : 1 ≤ n) (c : ℕ → ℝ) : (poly n c).eval 1 = c n := by
  rw [poly, eval_finsetSum, sum_eq_single n]
  · rw [eval_mul, phi_right hn n le_rfl]; simp
  · intro k hk h
    rw [eval_mul, phi_right hn k (by simpa [Nat.lt_succ_iff] using hk), if_neg h, mul_zero]
  · simp

theorem poly_eval (c : ℕ → ℝ) (j : ℕ) : (poly n c).eval (pts j) = backward n pts c j := by
  rw [poly, eval_finsetSum, backward]
  exact sum_congr rfl fun k _ => by rw [eval_mul, eval_C, P_eq]; ring

theorem poly_deriv_eval (hn : 1 ≤ n) (c : ℕ → ℝ) (j : ℕ) : (derivative (poly n c)).eval (pts j) = ∑ k ∈ range (n + 1), Px n pts j k * c k := by
  rw [poly, Polynomial.derivative_sum, eval_finsetSum]
  exact sum_congr rfl fun k hk => by rw [derivative_C_mul, eval_mul, eval_C, Px_eq hn j k (by simpa [Nat.lt_succ_iff] using hk)]; ring

theorem poly_congr {c d : ℕ → ℝ} (h : ∀ k ≤ n, c k = d k) : poly n c = poly n d :=
  sum_congr rfl fun k hk => by rw [h k (by simpa [Nat.lt_succ_iff] using hk)]

/-- The basis is independent. -/
theorem poly_injective (hn : 1 ≤ n) {c : ℕ → ℝ} (h : poly n c = 0) : ∀ k ≤ n, c k = 0 := by
  have h0 : c 0 = 0 := by rw [← poly_left hn c, h, eval_zero]
  have h1 : c n = 0 := by rw [← poly_right hn c, h, eval_zero]
  have h2 := congrArg derivative h
  rw [poly, Polynomial.derivative_sum, derivative_zero] at h2
  have h3 : ∑ k ∈ range (n + 1), C (-(if k = 0 then 0 else c k) * (2 * k + 1)) * legendre k = 0 := by
    rw [← h2]
    refine sum_congr rfl fun k hk => ?_
    rw [derivative_C_mul]
    by_cases hk0 : k = 0
    · subst hk0; simp [h0]
    · by_cases hkn : k = n
      · subst hkn; simp [h1]
      · rw [if_neg hk0, phi, if_neg hkn, if_pos (by omega)]
        obtain ⟨l, rfl⟩ : ∃ l, k = l + 1 := ⟨k - 1, by omega⟩
        have := leg_deriv_sub l
        rw [derivative_sub, Nat.add_sub_cancel]
        simp only [C_neg, C_mul, C_add, C_ofNat2, C_1, map_natCast]
        push_cast
        linear_combination C (c (l + 1)) * this
  intro k hk
  have h4 := leg_independent _ _ h3 k (by omega)
  by_cases hk0 : k = 0
  · rw [hk0, h0]
  · rw [if_neg hk0] at h4
    have : (2 * (k : ℝ) + 1) ≠ 0 := by positivity
    have := (mul_eq_zero.1 h4).resolve_right this
    linarith

/-- A polynomial of degree at most `n` is determined by its values at the points. -/
theorem eq_of_points (hR : Rule n pts w) {p q : ℝ[X]} (hp : p.natDegree ≤ n) (hq : q.natDegree ≤ n) (h : ∀ j ≤ n, p.eval (pts j) = q.eval (pts j)) : p = q := by
  refine eq_of_natDegree_lt_card_of_eval_eq' p q ((range (n + 1)).image pts) ?_ ?_
  · intro x hx
    obtain ⟨j, hj, rfl⟩ := mem_image.1 hx
    exact h j (by simpa [Nat.lt_succ_iff] using hj)
  · rw [card_image_of_injOn, card_range]
    · omega
    · intro i hi j hj hij
      exact hR.distinct i (by simpa [Nat.lt_succ_iff] using hi) j (by simpa [Nat.lt_succ_iff] using hj) hij

/-- The basis spans. -/
theorem exists_poly (hn : 1 ≤ n) (hR : Rule n pts w) {p : ℝ[X]} (hp : p.natDegree ≤ n) : ∃ c, poly n c = p := by
  let ext : (Fin (n + 1) → ℝ) → ℕ → ℝ := fun c k => if h : k < n + 1 then c ⟨k, h⟩ else 0
  let f : (Fin (n + 1) → ℝ) →ₗ[ℝ] (Fin (n + 1) → ℝ) :=
    { toFun := fun c j => backward n pts (ext c) j
      map_add' := fun c d => by
        funext j
        simp only [backward, Pi.add_apply, ← sum_add_distrib]
        refine sum_congr rfl fun k hk => ?_
        simp only [ext, dif_pos (mem_range.1 hk), Pi.add_apply, mul_add]
      map_smul' := fun r c => by
        funext j
        simp only [backward, Pi.smul_apply, smul_eq_mul, RingHom.id_apply, mul_sum]
        refine sum_congr rfl fun k hk => ?_
        simp only [ext, dif_pos (mem_range.1 hk), Pi.smul_apply, smul_eq_mul]
        ring }
  have hinj : Function.Injective f := by
    rw [injective_iff_map_eq_zero]
    intro c hc
    have h0 : poly n (ext c) = 0 := eq_of_points hR (poly_degree hn _) (by simp) fun j hj => by
      rw [poly_eval, eval_zero]
      exact congrFun hc ⟨j, by omega⟩
    funext k
    have := poly_injective hn h0 k (by omega)
    simpa only [ext, dif_pos k.2, Pi.zero_apply] using this
  obtain ⟨c, hc⟩ := (LinearMap.injective_iff_surjective.1 hinj) fun j => p.eval (pts j)
  refine ⟨ext c, eq_of_points hR (poly_degree hn _) hp fun j hj => ?_⟩
  rw [poly_eval]
  exact congrFun hc ⟨j, by omega⟩

/-! ## The assembled system -/

/-- `A` on one interval. -/
noncomputable def localA (n m : ℕ) (pts w : ℕ → ℝ) (kx : ℝ) (r c : ℕ) : ℝ := K n pts w r c * (m : ℝ) ^ 2 + kx ^ 2 * M n pts w r c

/-- The sum of the local matrices. -/
noncomputable def gluedA (n m : ℕ) (A : ℕ → ℕ → ℝ) (r c : ℕ) : ℝ :=
  ∑ i ∈ range m, if (n * i ≤ r ∧ r ≤ n * i + n) ∧ n * i ≤ c ∧ c ≤ n * i + n then A (r - n * i) (c - n * i) else 0

/-- The sum of the local right-hand sides. -/
noncomputable def gluedF (n m : ℕ) (F : ℕ → ℕ → ℝ) (r : ℕ) : ℝ := ∑ i ∈ range m, if n * i ≤ r ∧ r ≤ n * i + n then F i (r - n * i) else 0

theorem block_sum {i : ℕ} (hi : i < m) (F : ℕ → ℕ → ℝ) :
    ∑ r ∈ range (n * m + 1), (if n * i ≤ r ∧ r ≤ n * i + n then F (r - n * i) r else 0) = ∑ j ∈ range (n + 1), F j (n * i + j) := by
  have hle : n * i + n ≤ n * m := by rw [← Nat.mul_succ]; exact Nat.mul_le_mul_left n hi
  rw [← sum_filter]
  refine (sum_bij (fun j _ => n * i + j) (fun j hj => ?_) (fun a _ b _ h => by omega) (fun r hr => ?_) fun j hj => ?_).symm
  · have := mem_range.1 hj
    simp only [mem_filter, mem_range]
    omega
  · simp only [mem_filter, mem_range] at hr
    exact ⟨r - n * i, mem_range.2 (by omega), by omega⟩
  · rw [Nat.add_sub_cancel_left]

theorem glued_form (A : ℕ → ℕ → ℝ) (U W : ℕ → ℝ) :
    ∑ r ∈ range (n * m + 1), W r * ∑ c ∈ range (n * m + 1), gluedA n m A r c * U c =
      ∑ i ∈ range m, ∑ j ∈ range (n + 1), ∑ k ∈ range (n + 1), W (n * i + j) * (A j k * U (n * i + k)) := by
  simp only [gluedA, sum_mul, mul_sum]
  rw [sum_congr rfl fun r _ => sum_comm, sum_comm]
  refine sum_congr rfl fun i hi => ?_
  have hi := mem_range.1 hi
  rw [← block_sum hi fun j r => ∑ k ∈ range (n + 1), W r * (A j k * U (n * i + k))]
  refine sum_congr rfl fun r _ => ?_
  split_ifs with hr
  · rw [← block_sum hi fun k c => W r * (A (r - n * i) k * U c)]
    refine sum_congr rfl fun c _ => ?_
    by_cases hc : n * i ≤ c ∧ c ≤ n * i + n
    · rw [if_pos ⟨hr, hc⟩, if_pos hc]
    · rw [if_neg fun h => hc h.2, if_neg hc, zero_mul, mul_zero]
  · exact sum_eq_zero fun c _ => by rw [if_neg fun h => hr h.1, zero_mul, mul_zero]

theorem glued_rhs (F : ℕ → ℕ → ℝ) (W : ℕ → ℝ) :
    ∑ r ∈ range (n * m + 1), W r * gluedF n m F r = ∑ i ∈ range m, ∑ j ∈ range (n + 1), W (n * i + j) * F i j := by
  simp only [gluedF, mul_sum]
  rw [sum_comm]
  refine sum_congr rfl fun i hi => ?_
  rw [← block_sum (mem_range.1 hi) fun j r => W r * F i j]
  refine sum_congr rfl fun r _ => ?_
  split_ifs <;> simp

theorem local_form (hn : 1 ≤ n) (kx : ℝ) (u v : ℕ → ℝ) :
    ∑ j ∈ range (n + 1), ∑ k ∈ range (n + 1), v j * (localA n m pts w kx j k * u k) =
      ∑ p ∈ range (n + 1), w p * ((m : ℝ) ^ 2 * ((derivative (poly n u)).eval (pts p) * (derivative (poly n v)).eval (pts p)) +
        kx ^ 2 * ((poly n u).eval (pts p) * (poly n v).eval (pts p))) := by
  simp only [poly_eval, poly_deriv_eval hn, backward, localA, K, M]
  have e : ∀ (X Y : ℕ → ℕ → ℝ) (p : ℕ), (∑ k ∈ range (n + 1), X p k * u k) * (∑ j ∈ range (n + 1), Y p j * v j) =
      ∑ j ∈ range (n + 1), ∑ k ∈ range (n + 1), v j * (Y p j * X p k * u k) := fun X Y p => by
    rw [sum_mul_sum, sum_comm]
    exact sum_congr rfl fun j _ => sum_congr rfl fun k _ => by ring
  simp only [e, mul_sum, mul_add, sum_add_distrib, sum_mul, add_mul]
  congr 1
  · rw [sum_congr rfl fun j _ => sum_comm, sum_comm]
    exact sum_congr rfl fun p _ => sum_congr rfl fun j _ => sum_congr rfl fun k _ => by ring
  · rw [sum_congr rfl fun j _ => sum_comm, sum_comm]
    exact sum_congr rfl fun p _ => sum_congr rfl fun j _ => sum_congr rfl fun k _ => by ring

theorem local_rhs (f v : ℕ → ℝ) :
    ∑ j ∈ range (n + 1), v j * scalar n pts w f j = ∑ p ∈ range (n + 1), w p * (f p * (poly n v).eval (pts p)) := by
  simp only [poly_eval, backward, scalar, mul_sum]
  rw [sum_comm]
  exact sum_congr rfl fun p _ => sum_congr rfl fun j _ => by ring

/-! ## Functions -/

/-- The function of `x` with coefficients `U`, on interval `i`. -/
noncomputable def piece (n m : ℕ) (U : ℕ → ℝ) (i : ℕ) : ℝ[X] := (poly n fun k => U (n * i + k)).comp (C (m : ℝ) * X + C ((m : ℝ) - 1 - 2 * i))

theorem piece_eval (U : ℕ → ℝ) (i : ℕ) (x : ℝ) : (piece n m U i).eval x = (poly n fun k => U (n * i + k)).eval (m * x + (m - 1 - 2 * i)) := by
  rw [piece, eval_comp]
  simp

theorem piece_deriv (U : ℕ → ℝ) (i : ℕ) (x : ℝ) :
    (derivative (piece n m U i)).eval x = m * (derivative (poly n fun k => U (n * i + k))).eval (m * x + (m - 1 - 2 * i)) := by
  rw [piece, derivative_comp]
  simp [eval_comp]

theorem arg_left (hm : 1 ≤ m) (i : ℕ) : (m : ℝ) * node m i + (m - 1 - 2 * i) = -1 := by
  have : (m : ℝ) ≠ 0 := by positivity
  rw [node]
  field_simp
  ring

theorem arg_right (hm : 1 ≤ m) (i : ℕ) : (m : ℝ) * node m (i + 1) + (m - 1 - 2 * i) = 1 := by
  have : (m : ℝ) ≠ 0 := by positivity
  rw [node]
  push_cast
  field_simp
  ring

theorem arg_point (hm : 1 ≤ m) (i j : ℕ) : (m : ℝ) * point m pts i j + (m - 1 - 2 * i) = pts j := by
  have : (m : ℝ) ≠ 0 := by positivity
  rw [point, node]
  field_simp
  ring

theorem piece_left (hn : 1 ≤ n) (hm : 1 ≤ m) (U : ℕ → ℝ) (i : ℕ) : (piece n m U i).eval (node m i) = U (n * i) := by
  rw [piece_eval, arg_left hm, poly_left hn, add_zero]

theorem piece_right (hn : 1 ≤ n) (hm : 1 ≤ m) (U : ℕ → ℝ) (i : ℕ) : (piece n m U i).eval (node m (i + 1)) = U (n * i + n) := by
  rw [piece_eval, arg_right hm, poly_right hn]

theorem piece_point (hm : 1 ≤ m) (U : ℕ → ℝ) (i j : ℕ) : (piece n m U i).eval (point m pts i j) = backward n pts (fun k => U (n * i + k)) j := by
  rw [piece_eval, arg_point hm, poly_eval]

theorem node_zero : node m 0 = -1 := by simp [node]

theorem node_last (hm : 1 ≤ m) : node m m = 1 := by
  have : (m : ℝ) ≠ 0 := by positivity
  rw [node]
  field_simp
  norm_num

theorem piece_piecewise (hn : 1 ≤ n) (hm : 1 ≤ m) (U : ℕ → ℝ) : Piecewise n m (piece n m U) := by
  refine ⟨fun i _ => ?_, fun i _ => ?_⟩
  · rw [piece, natDegree_comp]
    have h1 := poly_degree hn fun k => U (n * i + k)
    have h2 : (C (m : ℝ) * X + C ((m : ℝ) - 1 - 2 * i)).natDegree ≤ 1 := natDegree_linear_le
    calc _ ≤ n * 1 := Nat.mul_le_mul h1 h2
      _ = n := mul_one n
  · rw [piece_right hn hm, piece_left hn hm, Nat.mul_succ]

/-- Every piecewise polynomial is one of these. -/
theorem exists_piece (hn : 1 ≤ n) (hm : 1 ≤ m) (hR : Rule n pts w) {u : ℕ → ℝ[X]} (hu : Piecewise n m u) : ∃ U, ∀ i < m, u i = piece n m U i := by
  have hm0 : (m : ℝ) ≠ 0 := by positivity
  let q : ℕ → ℝ[X] := fun i => (u i).comp (C (1 / (m : ℝ)) * X + C (-(((m : ℝ) - 1 - 2 * i) / m)))
  have hq : ∀ i < m, (q i).natDegree ≤ n := fun i hi => by
    rw [show q i = _ from rfl, natDegree_comp]
    have h2 : (C (1 / (m : ℝ)) * X + C (-(((m : ℝ) - 1 - 2 * i) / m))).natDegree ≤ 1 := natDegree_linear_le
    calc _ ≤ n * 1 := Nat.mul_le_mul (hu.degree i hi) h2
      _ = n := mul_one n
  have hqu : ∀ (i : ℕ) (x : ℝ), (q i).eval (m * x + (m - 1 - 2 * i)) = (u i).eval x := fun i x => by
    simp only [q, eval_comp, eval_add, eval_mul, eval_C, eval_X]
    congr 1
    field_simp
    ring
  choose! c hc using fun i (hi : i < m) => exists_poly hn hR (hq i hi)
  let U : ℕ → ℝ := fun r => if r = n * m then c (m - 1) n else c (r / n) (r % n)
  have hU : ∀ i < m, ∀ k ≤ n, U (n * i + k) = c i k := by
    intro i hi k hk
    have hle : n * i + n ≤ n * m := by rw [← Nat.mul_succ]; exact Nat.mul_le_mul_left n hi
    rcases Nat.lt_or_eq_of_le hk with hk | rfl
    · simp only [U]
      rw [if_neg (by omega), Nat.mul_add_div (by omega), Nat.div_eq_of_lt hk, add_zero, Nat.mul_add_mod, Nat.mod_eq_of_lt hk]
    · rcases Nat.lt_or_eq_of_le (Nat.succ_le_of_lt hi) with hi' | hi'
      · have hlt : k * (i + 1) < k * m := Nat.mul_lt_mul_of_pos_left hi' (by omega)
        have hs : k * i + k = k * (i + 1) := (Nat.mul_succ k i).symm
        simp only [U]
        rw [hs, if_neg (by omega), Nat.mul_div_cancel_left _ (by omega), Nat.mul_mod_right, ← poly_left hn (c (i + 1)), ← poly_right hn (c i),
          hc i hi, hc (i + 1) hi']
        have e1 := hqu i (node m (i + 1))
        have e2 := hqu (i + 1) (node m (i + 1))
        rw [arg_right hm] at e1
        rw [arg_left hm] at e2
        rw [e1, e2]
        exact (hu.cont i hi').symm
      · simp only [U]
        rw [← Nat.mul_succ, hi', if_pos rfl, show m - 1 = i by omega]
  refine ⟨U, fun i hi => ?_⟩
  refine Polynomial.funext fun x => ?_
  rw [piece_eval, poly_congr (hU i hi), hc i hi, hqu]

theorem integral_piece (hn : 1 ≤ n) (hm : 1 ≤ m) (hR : Rule n pts w) (kx : ℝ) (U W : ℕ → ℝ) (i : ℕ) :
    ∫ x in node m i..node m (i + 1), ((derivative (piece n m U i)).eval x * (derivative (piece n m W i)).eval x +
        kx ^ 2 * ((piece n m U i).eval x * (piece n m W i).eval x)) =
      1 / m * ∑ j ∈ range (n + 1), ∑ k ∈ range (n + 1), W (n * i + j) * (localA n m pts w kx j k * U (n * i + k)) := by
  have hm0 : (m : ℝ) ≠ 0 := by positivity
  let u := poly n fun k => U (n * i + k)
  let v := poly n fun k => W (n * i + k)
  let Q : ℝ[X] := C ((m : ℝ) ^ 2) * (derivative u * derivative v) + C (kx ^ 2) * (u * v)
  have hQ : Q.natDegree ≤ 2 * n + 1 := by
    have h1 : u.natDegree ≤ n := poly_degree hn _
    have h2 : v.natDegree ≤ n := poly_degree hn _
    have h3 := natDegree_derivative_le u
    have h4 := natDegree_derivative_le v
    refine (natDegree_add_le _ _).trans (max_le ?_ ?_)
    · exact (natDegree_C_mul_le _ _).trans (natDegree_mul_le.trans (by omega))
    · exact (natDegree_C_mul_le _ _).trans (natDegree_mul_le.trans (by omega))
  have e : ∀ x, (derivative (piece n m U i)).eval x * (derivative (piece n m W i)).eval x + kx ^ 2 * ((piece n m U i).eval x * (piece n m W i).eval x) =
      Q.eval (m * x + (m - 1 - 2 * i)) := fun x => by
    rw [piece_deriv, piece_deriv, piece_eval, piece_eval]
    simp only [Q, u, v, eval_add, eval_mul, eval_C]
    ring
  simp only [e]
  rw [intervalIntegral.integral_comp_mul_add (fun y => Q.eval y) hm0, arg_left hm, arg_right hm, ← hR.exact Q hQ, local_form hn, smul_eq_mul, one_div]
  congr 1
  refine sum_congr rfl fun p _ => ?_
  simp only [Q, u, v, eval_add, eval_mul, eval_C]

/-- The equations of the assembled system. -/
structure Solves (n m : ℕ) (pts w : ℕ → ℝ) (kx a b : ℝ) (f : ℕ → ℕ → ℝ) (U : ℕ → ℝ) : Prop where
  first : U 0 = a
  last : U (n * m) = b
  inner : ∀ r, 0 < r → r < n * m →
    ∑ c ∈ range (n * m + 1), gluedA n m (localA n m pts w kx) r c * U c = gluedF n m (fun i => scalar n pts w (f i)) r

theorem test_inner {A : ℕ → ℝ} {B : ℕ → ℝ} {N : ℕ} (h : ∀ r, 0 < r → r < N → A r = B r) {W : ℕ → ℝ} (h0 : W 0 = 0) (h1 : W N = 0) :
    ∑ r ∈ range (N + 1), W r * A r = ∑ r ∈ range (N + 1), W r * B r := by
  refine sum_congr rfl fun r hr => ?_
  by_cases hr0 : r = 0
  · rw [hr0, h0]; simp
  by_cases hr1 : r = N
  · rw [hr1, h1]; simp
  · rw [h r (by omega) (by have := mem_range.1 hr; omega)]

theorem solves_iff (hn : 1 ≤ n) (hm : 1 ≤ m) (hR : Rule n pts w) (kx a b : ℝ) (f : ℕ → ℕ → ℝ) (U : ℕ → ℝ) :
    Solves n m pts w kx a b f U ↔ Galerkin n m pts w kx a b f (piece n m U) := by
  have hm0 : (m : ℝ) ≠ 0 := by positivity
  have hl : ∀ W, (piece n m W 0).eval (-1) = W 0 := fun W => by
    have := piece_left hn hm W 0
    rwa [node_zero, mul_zero] at this
  have hr : ∀ W, (piece n m W (m - 1)).eval 1 = W (n * m) := fun W => by
    have := piece_right hn hm W (m - 1)
    rwa [Nat.sub_add_cancel hm, node_last hm, ← Nat.mul_succ, Nat.succ_eq_add_one, Nat.sub_add_cancel hm] at this
  have key : ∀ W, (∑ i ∈ range m, ∫ x in node m i..node m (i + 1), ((derivative (piece n m U i)).eval x * (derivative (piece n m W i)).eval x +
        kx ^ 2 * ((piece n m U i).eval x * (piece n m W i).eval x)) =
      ∑ i ∈ range m, ∑ j ∈ range (n + 1), w j / m * (f i j * (piece n m W i).eval (point m pts i j))) ↔
      ∑ r ∈ range (n * m + 1), W r * (∑ c ∈ range (n * m + 1), gluedA n m (localA n m pts w kx) r c * U c) =
        ∑ r ∈ range (n * m + 1), W r * gluedF n m (fun i => scalar n pts w (f i)) r := fun W => by
    rw [glued_form, glued_rhs]
    have e1 : ∀ i, ∑ j ∈ range (n + 1), w j / m * (f i j * (piece n m W i).eval (point m pts i j)) =
        1 / m * ∑ j ∈ range (n + 1), W (n * i + j) * scalar n pts w (f i) j := fun i => by
      rw [local_rhs (f i) fun j => W (n * i + j), mul_sum]
      refine sum_congr rfl fun j _ => ?_
      rw [piece_point hm, poly_eval]
      ring
    simp only [e1, integral_piece hn hm hR, ← mul_sum]
    exact mul_right_inj' (one_div_ne_zero hm0)
  constructor
  · intro h
    refine ⟨piece_piecewise hn hm U, by rw [hl, h.first], by rw [hr, h.last], fun v hv hv0 hv1 => ?_⟩
    obtain ⟨W, hW⟩ := exists_piece hn hm hR hv
    have e0 := hW 0 (by omega)
    have e1 := hW (m - 1) (by omega)
    rw [e0, hl] at hv0
    rw [e1, hr] at hv1
    have := (key W).2 (test_inner h.inner hv0 hv1)
    rw [sum_congr rfl fun i hi => by rw [hW i (mem_range.1 hi)]]
    rw [this]
    exact sum_congr rfl fun i hi => by rw [hW i (mem_range.1 hi)]
  · intro h
    refine ⟨by rw [← hl U, h.left], by rw [← hr U, h.right], fun r h0 h1 => ?_⟩
    let W : ℕ → ℝ := fun s => if s = r then 1 else 0
    have := (key W).1 (h.weak (piece n m W) (piece_piecewise hn hm W) (by rw [hl]; simp [W, h0.ne]) (by rw [hr]; simp [W, h1.ne']))
    have e : ∀ F : ℕ → ℝ, ∑ s ∈ range (n * m + 1), W s * F s = F r := fun F => by
      rw [sum_eq_single r]
      · simp [W]
      · intro s _ hs
        simp [W, hs]
      · intro hr'
        exact absurd (mem_range.2 (by omega)) hr'
    rwa [e, e] at this

/-- The homogeneous system has the solution zero only. -/
theorem solves_zero (hn : 1 ≤ n) (hm : 1 ≤ m) (hR : Rule n pts w) (kx : ℝ) (U : ℕ → ℝ) (h : Solves n m pts w kx 0 0 (fun _ _ => 0) U) :
    ∀ r ≤ n * m, U r = 0 := by
  have hm0 : (0 : ℝ) < m := by positivity
  have hz : ∀ r, scalar n pts w (fun _ => 0) r = 0 := fun r => by simp [scalar]
  have h1 := test_inner h.inner h.first h.last
  rw [glued_form, glued_rhs] at h1
  simp only [hz, mul_zero, sum_const_zero] at h1
  rw [sum_congr rfl fun i _ => local_form (m := m) (pts := pts) (w := w) hn kx (fun k => U (n * i + k)) (fun k => U (n * i + k))] at h1
  have hpos : ∀ i, ∀ p ∈ range (n + 1), 0 ≤ w p * ((m : ℝ) ^ 2 * ((derivative (poly n fun k => U (n * i + k))).eval (pts p) * (derivative (poly n fun k => U (n * i + k))).eval (pts p)) +
        kx ^ 2 * ((poly n fun k => U (n * i + k)).eval (pts p) * (poly n fun k => U (n * i + k)).eval (pts p))) := fun i p hp => by
    have := hR.positive p (by simpa [Nat.lt_succ_iff] using hp)
    exact mul_nonneg this.le (add_nonneg (mul_nonneg (by positivity) (mul_self_nonneg _)) (mul_nonneg (by positivity) (mul_self_nonneg _)))
  rw [sum_eq_zero_iff_of_nonneg fun i _ => sum_nonneg (hpos i)] at h1
  have hd : ∀ i < m, derivative (poly n fun k => U (n * i + k)) = 0 := fun i hi => by
    have h2 := h1 i (mem_range.2 hi)
    rw [sum_eq_zero_iff_of_nonneg (hpos i)] at h2
    refine eq_of_points hR ((natDegree_derivative_le _).trans ((Nat.sub_le _ _).trans (poly_degree hn _))) (by simp) fun j hj => ?_
    have h3 := (mul_eq_zero.1 (h2 j (mem_range.2 (by omega)))).resolve_left (hR.positive j hj).ne'
    have a1 : 0 ≤ (m : ℝ) ^ 2 * ((derivative (poly n fun k => U (n * i + k))).eval (pts j) * (derivative (poly n fun k => U (n * i + k))).eval (pts j)) :=
      mul_nonneg (by positivity) (mul_self_nonneg _)
    have a2 : 0 ≤ kx ^ 2 * ((poly n fun k => U (n * i + k)).eval (pts j) * (poly n fun k => U (n * i + k)).eval (pts j)) :=
      mul_nonneg (by positivity) (mul_self_nonneg _)
    have h4 := (add_eq_zero_iff_of_nonneg a1 a2).1 h3
    have h5 := (mul_eq_zero.1 h4.1).resolve_left (by positivity)
    rw [eval_zero]
    exact mul_self_eq_zero.1 h5
  have hconst : ∀ i < m, U (n * i) = 0 → ∀ k ≤ n, U (n * i + k) = 0 := fun i hi h0 => by
    have h2 := natDegree_eq_zero_of_derivative_eq_zero (hd i hi)
    refine poly_injective hn ?_
    rw [eq_C_of_natDegree_eq_zero h2]
    have h3 := poly_left hn fun k => U (n * i + k)
    rw [eq_C_of_natDegree_eq_zero h2, eval_C, add_zero, h0] at h3
    rw [h3, C_0]
  have hall : ∀ i < m, U (n * i) = 0 := by
    intro i
    induction i with
    | zero => intro _; rw [mul_zero]; exact h.first
    | succ i ih => intro hi; exact hconst i (by omega) (ih (by omega)) n le_rfl
  intro r hr
  rcases Nat.lt_or_eq_of_le hr with hr | rfl
  · have e := Nat.div_add_mod r n
    rw [← e]
    exact hconst _ (Nat.div_lt_of_lt_mul hr) (hall _ (Nat.div_lt_of_lt_mul hr)) _ (Nat.mod_lt _ (by omega)).le
  · exact h.last

end SpectralDNS.Leg

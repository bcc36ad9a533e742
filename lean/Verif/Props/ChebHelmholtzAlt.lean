import Verif.Props.ChebHelmholtz
import Verif.Lemmas.Galerkin

/-!
# C124: the second way of sandbox/nonhomogen_poisson.py in one domain gives the same numbers
-/

namespace SpectralDNS.ChebH

open Polynomial Finset Sandbox

open Polynomial.Chebyshev (T)

open Leg (setPart range_ends)

variable {n : ℕ} {pts w : ℕ → ℝ}

/-- The quadrature of the script integrates the Chebyshev polynomials of degree between 1 and `2n-1` to zero. -/
theorem quad_T (hn : 1 ≤ n) (hD : Documented n pts w) {k : ℕ} (h0 : 0 < k) (h1 : k < 2 * n) : ∑ j ∈ range (n + 1), w j * (T ℝ (k : ℤ)).eval (pts j) = 0 := by
  have hq : ∑ j ∈ range (n + 1), w j * (T ℝ (k : ℤ)).eval (Real.cos (Real.pi * j / n)) = 0 := by
    have h := Channel.quad_GL_T (n + 1) k (by omega) (by omega)
    rw [Channel.wint_T, if_neg (by omega), Channel.quadrature_apply] at h
    rw [← h]
    refine sum_congr rfl fun j hj => ?_
    rw [hD.weights j (by simpa [Nat.lt_succ_iff] using hj)]
    simp [Channel.quadWeight, Channel.quadPoint]
  rcases hD.points with hp | hp
  · rw [← hq]
    exact sum_congr rfl fun j hj => by rw [hp j (by simpa [Nat.lt_succ_iff] using hj)]
  · have : ∑ j ∈ range (n + 1), w j * (T ℝ (k : ℤ)).eval (pts j) =
        ((k : ℤ).negOnePow : ℝ) * ∑ j ∈ range (n + 1), w j * (T ℝ (k : ℤ)).eval (Real.cos (Real.pi * j / n)) := by
      rw [mul_sum]
      refine sum_congr rfl fun j hj => ?_
      rw [hp j (by simpa [Nat.lt_succ_iff] using hj), Polynomial.Chebyshev.T_eval_neg]
      ring
    rw [this, hq, mul_zero]

theorem M_symm (r c : ℕ) : M n pts w r c = M n pts w c r := sum_congr rfl fun j _ => by ring

/-- The stiffness matrix does not couple the linear functions with the others. -/
theorem K_end (hn : 1 ≤ n) (r : ℕ) {e : ℕ} (he : e = 0 ∨ e = n) : K n pts w r e = 0 := by
  rw [K, neg_eq_zero]
  refine sum_eq_zero fun j _ => ?_
  rw [Pxx_eq hn j e (by omega), phi]
  rcases he with rfl | rfl
  · rw [if_neg (by omega), if_neg (by omega)]
    simp
  · rw [if_pos rfl]
    simp

/-- The mass matrix couples them with two functions only. -/
theorem M_end (hn : 1 ≤ n) (hD : Documented n pts w) {r e : ℕ} (h0 : 3 ≤ r) (h1 : r < n) (he : e = 0 ∨ e = n) : M n pts w r e = 0 := by
  obtain ⟨k, rfl⟩ : ∃ k, r = k + 3 := ⟨r - 3, by omega⟩
  have hc : ∃ t : ℝ, ∀ x, (phi n e).eval x = 1 / 2 + t * x := by
    unfold phi
    rcases he with rfl | rfl
    · rw [if_neg (by omega), if_neg (by omega)]
      exact ⟨-(1 / 2), fun x => by simp; ring⟩
    · rw [if_pos rfl]
      exact ⟨1 / 2, fun x => by simp; ring⟩
  obtain ⟨t, ht⟩ := hc
  have hx : ∀ (l : ℕ) (x : ℝ), x * (T ℝ ((l + 1 : ℕ) : ℤ)).eval x = 1 / 2 * (T ℝ ((l + 2 : ℕ) : ℤ)).eval x + 1 / 2 * (T ℝ (l : ℤ)).eval x := fun l x => by
    have := congrArg (eval x) (Polynomial.Chebyshev.T_add_two ℝ (l : ℤ))
    simp only [eval_sub, eval_mul, eval_X, eval_ofNat] at this
    push_cast
    linear_combination (-1 / 2) * this
  have e1 : ∀ j ∈ range (n + 1), w j * P n pts j (k + 3) * P n pts j e =
      1 / 2 * (w j * (T ℝ ((k + 2 : ℕ) : ℤ)).eval (pts j)) - 1 / 2 * (w j * (T ℝ ((k + 4 : ℕ) : ℤ)).eval (pts j)) +
      (t / 2 * (w j * (T ℝ ((k + 1 : ℕ) : ℤ)).eval (pts j)) - t / 2 * (w j * (T ℝ ((k + 5 : ℕ) : ℤ)).eval (pts j))) := fun j _ => by
    rw [P_eq hn j _ h1.le, P_eq hn j e (by omega), ht, phi, if_neg h1.ne, if_pos (by omega), show k + 3 - 1 = k + 2 from rfl, eval_sub]
    have a := hx (k + 1) (pts j)
    have b := hx (k + 3) (pts j)
    simp only [add_assoc, Nat.reduceAdd] at a b ⊢
    linear_combination (w j * t) * a - (w j * t) * b
  rw [M, sum_congr rfl e1]
  simp only [sum_add_distrib, sum_sub_distrib, ← mul_sum]
  rw [quad_T hn hD (by omega) (by omega), quad_T hn hD (by omega) (by omega), quad_T hn hD (by omega) (by omega), quad_T hn hD (by omega) (by omega)]
  ring

/-- The system of the second way has the inner equations of the first, with the known coefficients moved to the right. -/
theorem systemAlt_rhs (hn : 1 ≤ n) (hD : Documented n pts w) (kx a b : ℝ) (fj : ℕ → ℝ) {r : ℕ} (hr : r < n - 1) :
    (systemAlt n pts w kx a b fj).2 r = scalar n pts w fj (r + 1) - ((K n pts w (r + 1) 0 + kx ^ 2 * M n pts w (r + 1) 0) * a +
      (K n pts w (r + 1) n + kx ^ 2 * M n pts w (r + 1) n) * b) := by
  rw [K_end hn _ (Or.inl rfl), K_end hn _ (Or.inr rfl)]
  simp only [systemAlt]
  rcases r with _ | _ | r
  · rw [Function.update_of_ne (by omega), zero_add, Function.update_self, M_symm 0, M_symm n]
    ring
  · rw [zero_add, Function.update_self, Function.update_of_ne (by omega), M_symm 0, M_symm n]
    ring
  · rw [Function.update_of_ne (by omega), Function.update_of_ne (by omega), M_end hn hD (by omega) (by omega) (Or.inl rfl),
      M_end hn hD (by omega) (by omega) (Or.inr rfl)]
    ring

theorem row_one (hn : 1 ≤ n) (hL : Lobatto n pts w) {kx a b : ℝ} {fj W : ℕ → ℝ} (h : Solves n 1 pts kx a b (fun _ => fj) W) {r : ℕ} (h0 : 0 < r) (h1 : r < n) :
    ∑ c ∈ range (n + 1), (K n pts w r c + kx ^ 2 * M n pts w r c) * W c = scalar n pts w fj r := by
  have := (local_iff (m := 1) hn hL kx fj W).2 (fun j h0 h1 => by simpa using h.inner 0 (by omega) j h0 h1) r h0 h1
  simpa [localA] using this

theorem systemAlt_solves (hn : 2 ≤ n) (hD : Documented n pts w) (kx a b : ℝ) (fj : ℕ → ℝ) :
    (Matrix.of fun i j : Fin (n - 1) => (systemAlt n pts w kx a b fj).1 i j).det ≠ 0 ∧
      ∀ k ≤ n, u_hat2 n pts w kx a b fj k = linsolve (n + 1) (systemOne n pts w kx a b fj).1 (systemOne n pts w kx a b fj).2 k := by
  have hn1 : 1 ≤ n := by omega
  have hL := hD.toLobatto
  have hdet : (Matrix.of fun i j : Fin (n - 1) => (systemAlt n pts w kx a b fj).1 i j).det ≠ 0 := by
    intro hdet
    obtain ⟨v, hv, h0⟩ := Matrix.exists_mulVec_eq_zero_iff.2 hdet
    apply hv
    let W : ℕ → ℝ := fun r => if h : 0 < r ∧ r < n then v ⟨r - 1, by omega⟩ else 0
    have hW0 : W 0 = 0 := by simp [W]
    have hWn : W n = 0 := by simp [W]
    have hin : ∀ r, 0 < r → r < n → ∑ k ∈ range (n + 1), localA n 1 pts w kx r k * W k = scalar n pts w (fun _ => 0) r := fun r h1 h2 => by
      have := congrFun h0 ⟨r - 1, by omega⟩
      simp only [Matrix.mulVec, dotProduct, Matrix.of_apply, Pi.zero_apply, systemAlt] at this
      rw [show scalar n pts w (fun _ => 0) r = 0 by simp [scalar], ← this, range_ends hn1, hW0, hWn, Finset.sum_range]
      simp only [mul_zero, zero_add, add_zero]
      refine sum_congr rfl fun c _ => ?_
      have hc := c.2
      have e : W (c + 1) = v c := by
        simp only [W]
        rw [dif_pos ⟨by omega, by omega⟩]
        rfl
      rw [e, show r - 1 + 1 = r by omega]
      simp [localA]
    have := solves_zero hn le_rfl hL (kx := kx) (U := W) ⟨hW0, by rw [mul_one, hWn], fun i hi => by omega, fun i hi j h1 h2 => by
      obtain rfl : i = 0 := by omega
      simpa using (local_iff (m := 1) hn1 hL kx (fun _ => 0) W).1 hin j h1 h2⟩
    funext r
    have hr := r.2
    have h1 := this (r + 1) (by omega)
    simp only [W] at h1
    rw [dif_pos ⟨by omega, by omega⟩] at h1
    exact h1
  refine ⟨hdet, ?_⟩
  obtain ⟨-, h1⟩ := systemOne_solves hn hL kx a b fj
  generalize linsolve (n + 1) (systemOne n pts w kx a b fj).1 (systemOne n pts w kx a b fj).2 = W at h1 ⊢
  have hb : W n = b := by simpa using h1.last
  have hin : ∀ k < n - 1, linsolve (n - 1) (systemAlt n pts w kx a b fj).1 (systemAlt n pts w kx a b fj).2 k = W (k + 1) := by
    refine (linsolve_spec _ _ _ hdet fun k => W (k + 1)).1 fun r hr => ?_
    have h2 := row_one hn1 hL h1 (r := r + 1) (by omega) (by omega)
    rw [range_ends hn1, h1.first, hb] at h2
    rw [systemAlt_rhs hn1 hD kx a b fj hr, ← h2]
    simp only [systemAlt]
    ring
  intro k hk
  simp only [u_hat2]
  by_cases hkn : k = n
  · rw [hkn, Function.update_self, hb]
  · rw [Function.update_of_ne hkn]
    by_cases hk0 : k = 0
    · rw [hk0, Function.update_self, h1.first]
    · rw [Function.update_of_ne hk0, setPart, if_pos ⟨by omega, by omega⟩, hin (k - 1) (by omega), Nat.sub_add_cancel (by omega)]

/-- C124: the second way in one domain, whose result the script does not check, can be solved and gives the same numbers as the first. -/
theorem C124_alternative (hn : 2 ≤ n) (hD : Documented n pts w) (kx a b : ℝ) (fj : ℕ → ℝ) :
    (Matrix.of fun i j : Fin (n - 1) => (systemAlt n pts w kx a b fj).1 i j).det ≠ 0 ∧ uq2 n pts w kx a b fj = uqOne n pts w kx a b fj := by
  obtain ⟨hdet, h⟩ := systemAlt_solves hn hD kx a b fj
  refine ⟨hdet, _root_.funext fun j => ?_⟩
  unfold uq2 uqOne backward
  exact sum_congr rfl fun k hk => by rw [h k (by simpa [Nat.lt_succ_iff] using hk)]

/-- The documented points and weights, with the numbers of the script. -/
example (fj : ℕ → ℝ) :
    let pts : ℕ → ℝ := fun j => Real.cos (Real.pi * j / (32 : ℕ))
    let w : ℕ → ℝ := fun j => if j = 0 ∨ j = 32 then Real.pi / (2 * (32 : ℕ)) else Real.pi / (32 : ℕ)
    uq2 32 pts w (√5) (-0.5) 1.5 fj = uqOne 32 pts w (√5) (-0.5) 1.5 fj := by
  intro pts w
  exact (C124_alternative (by omega) ⟨lobatto_documented (by omega), fun _ _ => rfl⟩ _ _ _ _).2

end SpectralDNS.ChebH

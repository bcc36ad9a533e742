import Verif.Model.LegShen
import Verif.Props.LegPoisson

/-!
# C127: sandbox/leg_poisson.py computes the Galerkin solution

For every number of points, every `kx` and all data.  `n` is one less than the number of points, as in `Rule` and `Galerkin`.
-/

namespace SpectralDNS.Leg.Shen

open Polynomial Finset Sandbox

variable {n : ℕ} {pts w : ℕ → ℝ}

theorem phi_basis (k : ℕ) (hk : k < n - 1) : phi n (k + 1) = basis k := by
  simp [phi, basis, show k + 1 ≠ n by omega]

theorem AA_eq (hn : 1 ≤ n) (hR : Rule n pts w) (kx : ℝ) (r c : ℕ) (hr : r < n - 1) (hc : c < n - 1) (fj : ℕ → ℝ) :
    AA kx r c = (system2 n pts w kx 0 0 fj).1 r c := by
  simp only [system2, AA]
  rw [K_exact hn hR (by omega) (by omega), M_exact hn hR (by omega) (by omega), phi_basis r hr, phi_basis c hc]
  rfl

theorem rhs_eq (kx : ℝ) (fj : ℕ → ℝ) (r : ℕ) (hr : r < n - 1) : f_hat (n + 1) pts w fj r = (system2 n pts w kx 0 0 fj).2 r := by
  have h : scalar n pts w fj (r + 1) = f_hat (n + 1) pts w fj r := by
    simp only [scalar, f_hat, P_eq, phi_basis r hr]
  simp only [system2, Function.update_apply, mul_zero, add_zero, sub_zero]
  rw [← h]
  split_ifs with h1 h2 <;> simp_all

theorem uq_eq (hn : 2 ≤ n) (hR : Rule n pts w) (kx : ℝ) (fj : ℕ → ℝ) (j : ℕ) : uq (n + 1) pts w kx fj j = uq2 n pts w kx 0 0 fj j := by
  have hs : linsolve (n - 1) (AA kx) (f_hat (n + 1) pts w fj) = linsolve (n - 1) (system2 n pts w kx 0 0 fj).1 (system2 n pts w kx 0 0 fj).2 := by
    rw [linsolve_congr _ _ _ _ fun i hi k hk => AA_eq (by omega) hR kx i k hi hk fj]
    unfold linsolve
    funext k
    split_ifs with h
    · congr 1
      congr 1
      funext i
      exact rhs_eq kx fj i i.2
    · rfl
  rw [uq2, backward, range_ends (by omega), uq, show n + 1 - 2 = n - 1 by omega]
  have h0 : u_hat2 n pts w kx 0 0 fj 0 = 0 := by simp [u_hat2, Function.update_apply]
  have h1 : u_hat2 n pts w kx 0 0 fj n = 0 := by simp [u_hat2]
  rw [h0, h1, mul_zero, mul_zero, zero_add, add_zero]
  refine sum_congr rfl fun k hk => ?_
  have hk := mem_range.1 hk
  rw [P_eq, phi_basis k hk, u_hat, show n + 1 - 2 = n - 1 by omega, if_pos hk, hs, u_hat2]
  simp only [Function.update_apply, setPart]
  rw [if_neg (by omega), if_neg (by omega), if_pos (by omega), Nat.add_sub_cancel]

/-- C127: the system has one solution. -/
theorem C127_solvable (hn : 2 ≤ n) (hR : Rule n pts w) (kx : ℝ) : (Matrix.of fun r c : Fin (n - 1) => AA kx r c).det ≠ 0 := by
  have h := (C112_solvable (by omega) hR kx 0 0 (fun _ => 0) fun _ _ => 0).2.1
  rwa [show (Matrix.of fun r c : Fin (n - 1) => AA kx r c) = Matrix.of fun i j : Fin (n - 1) => (system2 n pts w kx 0 0 fun _ => 0).1 i j from
    Matrix.ext fun r c => AA_eq (by omega) hR kx r c r.2 c.2 fun _ => 0]

/-- C127: the script returns the values of the Galerkin approximation, which exists and is unique. -/
theorem C127_galerkin (hn : 2 ≤ n) (hR : Rule n pts w) (kx : ℝ) (fj : ℕ → ℝ) : ∃ u, Galerkin n 1 pts w kx 0 0 (fun _ => fj) u ∧
    (∀ v, Galerkin n 1 pts w kx 0 0 (fun _ => fj) v → v 0 = u 0) ∧ ∀ j ≤ n, uq (n + 1) pts w kx fj j = (u 0).eval (pts j) := by
  obtain ⟨u, h1, h2, h3⟩ := (C112_one (by omega) hR).galerkin kx 0 0 fun _ => fj
  refine ⟨u, h1, fun v hv => h2 v hv 0 (by omega), fun j hj => ?_⟩
  have := h3 0 (by omega) j hj
  rw [uq_eq hn hR, (C112_alternative hn hR kx 0 0 fj).2, this]
  simp [xx]

/-- C127: no error for a polynomial that vanishes at both ends and that the points determine: the script's assertion holds. -/
theorem C127_exact (hn : 2 ≤ n) (hR : Rule n pts w) (kx : ℝ) (u : ℝ[X]) (hu : u.natDegree ≤ n) (h1 : u.eval 1 = 0) (h2 : u.eval (-1) = 0) (j : ℕ) (hj : j ≤ n) :
    uq (n + 1) pts w kx (fun i => -(derivative (derivative u)).eval (pts i) + kx ^ 2 * u.eval (pts i)) j = u.eval (pts j) := by
  have h := (C112_one (by omega) hR).exact kx (fun _ i => -(derivative (derivative u)).eval (pts i) + kx ^ 2 * u.eval (pts i)) (fun _ => u)
    ⟨fun _ _ => hu, fun _ _ => rfl⟩ (fun _ _ => rfl) (fun i _ j _ => by simp [xx]) 0 (by omega) j hj
  rw [uq_eq hn hR, (C112_alternative hn hR kx 0 0 _).2]
  simpa only [h1, h2, xx, if_true] using h

/-- With three points: `u = 1 - x^2`, so that `f = 2 + kx^2 (1 - x^2)`. -/
example (kx : ℝ) (j : ℕ) (hj : j ≤ 2) :
    let pts : ℕ → ℝ := fun j => if j = 0 then -√(3 / 5) else if j = 1 then 0 else √(3 / 5)
    let w : ℕ → ℝ := fun j => if j = 1 then 8 / 9 else 5 / 9
    uq 3 pts w kx (fun i => 2 + kx ^ 2 * (1 - pts i ^ 2)) j = 1 - pts j ^ 2 := by
  intro pts w
  have hd : (1 - X ^ 2 : ℝ[X]).natDegree ≤ 2 := by compute_degree
  have h := C127_exact (by omega) rule_three kx (1 - X ^ 2) hd (by simp) (by simp) j hj
  have e : (fun i => -(derivative (derivative (1 - X ^ 2 : ℝ[X]))).eval (pts i) + kx ^ 2 * (1 - X ^ 2 : ℝ[X]).eval (pts i)) =
      fun i => 2 + kx ^ 2 * (1 - pts i ^ 2) := by
    funext i
    simp only [derivative_sub, derivative_one, derivative_X_pow, eval_sub, eval_one, eval_pow, eval_X, zero_sub, derivative_neg, eval_neg]
    simp
  rw [← e]
  refine h.trans ?_
  simp [pts]

end SpectralDNS.Leg.Shen

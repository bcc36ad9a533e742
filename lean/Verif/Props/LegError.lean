import Verif.Lemmas.LegError
import Mathlib.Topology.ContinuousMap.Weierstrass

/-!
# C116: the error of sandbox/nonhomogen_poisson_leg.py
-/

namespace SpectralDNS.Leg

open Polynomial Finset Sandbox

variable {n m : ℕ} {pts w : ℕ → ℝ}

/-- Bound of the error by the distance of the second derivative from polynomials. -/
def Accurate (n m : ℕ) (pts : ℕ → ℝ) (uq : ℝ → ℝ → ℝ → (ℕ → ℕ → ℝ) → ℕ → ℕ → ℝ) : Prop :=
  ∀ (kx : ℝ) (u u1 u2 : ℝ → ℝ), (∀ x ∈ Set.Icc (-1 : ℝ) 1, HasDerivAt u (u1 x) x) → (∀ x ∈ Set.Icc (-1 : ℝ) 1, HasDerivAt u1 (u2 x) x) →
    ∀ (q : ℝ[X]) (eps : ℝ), q.natDegree + 2 ≤ n → 0 < eps → (∀ x ∈ Set.Icc (-1 : ℝ) 1, |u2 x - q.eval x| ≤ eps) →
    ∀ i < m, ∀ j ≤ n, |uq kx (u (-1)) (u 1) (fun i j => -u2 (xx m pts i j) + kx ^ 2 * u (xx m pts i j)) i j - u (xx m pts i j)| ≤ (9 / 2 + 2 * kx ^ 2) * eps

theorem accurate (hm : m = 1 ∨ m = 2 ∨ m = 4) (hR : Rule n pts w) {uq : ℝ → ℝ → ℝ → (ℕ → ℕ → ℝ) → ℕ → ℕ → ℝ} (h : Computes n m pts w uq) :
    Accurate n m pts uq := by
  intro kx u u1 u2 h1 h2 q eps hq heps hd i hi j hj
  have hm1 : 1 ≤ m := by omega
  obtain ⟨p, hp2, hpl, hpr, hpd⟩ := exists_second q (u (-1)) (u 1)
  obtain ⟨v, hv, -, hval⟩ := h.galerkin kx (u (-1)) (u 1) (fun i j => -u2 (xx m pts i j) + kx ^ 2 * u (xx m pts i j))
  have hpG := strong_galerkin (kx := kx) (by omega) hm1 hR (u := fun _ => p) ⟨fun _ _ => hpd.trans hq, fun _ _ => rfl⟩ (fun _ _ => rfl)
    (fun i j => -(derivative (derivative p)).eval (point m pts i j) + kx ^ 2 * p.eval (point m pts i j)) fun _ _ _ _ => rfl
  rw [hpl, hpr] at hpG
  have hsub := hv.sub hpG
  rw [sub_self, sub_self] at hsub
  have hin : ∀ i < m, ∀ j ≤ n, point m pts i j ∈ Set.Icc (-1 : ℝ) 1 := fun i hi j hj => by
    have := point_mem hm1 hR i hj
    exact ⟨(node_le_one hm1 hi.le).1.trans this.1, this.2.trans (node_le_one hm1 hi).2⟩
  have hdist : ∀ x ∈ Set.Icc (-1 : ℝ) 1, |u x - p.eval x| ≤ eps / 2 := by
    refine bound_second (d := fun x => u x - p.eval x) (d1 := fun x => u1 x - (derivative p).eval x) (d2 := fun x => u2 x - q.eval x)
      (fun x hx => (h1 x hx).sub (p.hasDerivAt x)) (fun x hx => ?_) hd (by rw [hpl, sub_self]) (by rw [hpr, sub_self])
    have := (derivative p).hasDerivAt x
    rw [hp2] at this
    exact (h2 x hx).sub this
  have hb := galerkin_bound hm1 hR hsub (B := (1 + kx ^ 2 / 2) * eps) (by positivity) (fun i hi j hj => by
    have hx := hin i hi j hj
    have a1 := hd _ hx
    have a2 := hdist _ hx
    rw [C112_points hm i j hi, hp2]
    rw [show -u2 (point m pts i j) + kx ^ 2 * u (point m pts i j) - (-q.eval (point m pts i j) + kx ^ 2 * p.eval (point m pts i j)) =
      -(u2 (point m pts i j) - q.eval (point m pts i j)) + kx ^ 2 * (u (point m pts i j) - p.eval (point m pts i j)) by ring]
    refine (abs_add_le _ _).trans ?_
    rw [abs_neg, abs_mul, abs_of_nonneg (sq_nonneg kx)]
    nlinarith [mul_le_mul_of_nonneg_left a2 (sq_nonneg kx)]) i hi (point m pts i j) (point_mem hm1 hR i hj)
  rw [hval i hi j hj, C112_points hm i j hi]
  rw [eval_sub] at hb
  have a2 := hdist _ (hin i hi j hj)
  rw [abs_sub_comm] at a2
  calc |(v i).eval (point m pts i j) - u (point m pts i j)|
      = |((v i).eval (point m pts i j) - p.eval (point m pts i j)) + (p.eval (point m pts i j) - u (point m pts i j))| := by congr 1; ring
    _ ≤ 4 * ((1 + kx ^ 2 / 2) * eps) + eps / 2 := (abs_add_le _ _).trans (add_le_add hb a2)
    _ = _ := by ring

/-- C116: in one, two and four domains, the error at the points is at most `9/2 + 2 kx^2` times the largest distance of `u''` from any polynomial of degree at
most `n - 2`. -/
theorem C116_error (hn : 2 ≤ n) (hR : Rule n pts w) :
    Accurate n 1 pts (fun kx a b f _ => uq1 n pts w kx a b (f 0)) ∧ Accurate n 2 pts (uqTwo n pts w) ∧ Accurate n 4 pts (uqFour n pts w) :=
  ⟨accurate (Or.inl rfl) hR (C112_one (by omega) hR), accurate (Or.inr (Or.inl rfl)) hR (C112_two (by omega) hR), accurate (Or.inr (Or.inr rfl)) hR (C112_four (by omega) hR)⟩

/-- C116: the script's quadrature rule exists for every number of points. -/
theorem C116_rule (n : ℕ) : ∃ pts w, Rule n pts w ∧ ∀ j ≤ n, (legendre (n + 1)).eval (pts j) = 0 ∧ -1 < pts j ∧ pts j < 1 := by
  obtain ⟨pts, w, hR, h⟩ := exists_rule n
  exact ⟨pts, w, hR, fun j hj => ⟨h j hj, hR.inside hj⟩⟩

/-- C116: for every solution with a continuous second derivative the errors at all points tend to zero, as the number of points grows. -/
theorem C116_converges (kx : ℝ) {u u1 u2 : ℝ → ℝ} (h1 : ∀ x ∈ Set.Icc (-1 : ℝ) 1, HasDerivAt u (u1 x) x) (h2 : ∀ x ∈ Set.Icc (-1 : ℝ) 1, HasDerivAt u1 (u2 x) x)
    (hc : ContinuousOn u2 (Set.Icc (-1) 1)) {delta : ℝ} (hdelta : 0 < delta) : ∃ n0, ∀ n ≥ n0, ∀ pts w, Rule n pts w → ∀ j ≤ n,
      |uq1 n pts w kx (u (-1)) (u 1) (fun j => -u2 (xx 1 pts 0 j) + kx ^ 2 * u (xx 1 pts 0 j)) j - u (xx 1 pts 0 j)| < delta ∧
      (∀ i < 2, |uqTwo n pts w kx (u (-1)) (u 1) (fun i j => -u2 (xx 2 pts i j) + kx ^ 2 * u (xx 2 pts i j)) i j - u (xx 2 pts i j)| < delta) ∧
      (∀ i < 4, |uqFour n pts w kx (u (-1)) (u 1) (fun i j => -u2 (xx 4 pts i j) + kx ^ 2 * u (xx 4 pts i j)) i j - u (xx 4 pts i j)| < delta) := by
  have hk : 0 < 9 / 2 + 2 * kx ^ 2 := by positivity
  obtain ⟨q, hq⟩ := exists_polynomial_near_of_continuousOn (-1) 1 u2 hc (delta / (2 * (9 / 2 + 2 * kx ^ 2))) (by positivity)
  refine ⟨q.natDegree + 2, fun n hn pts w hR j hj => ?_⟩
  obtain ⟨e1, e2, e4⟩ := C116_error (by omega) hR
  have hb : ∀ x ∈ Set.Icc (-1 : ℝ) 1, |u2 x - q.eval x| ≤ delta / (2 * (9 / 2 + 2 * kx ^ 2)) := fun x hx => by
    rw [abs_sub_comm]; exact (hq x hx).le
  have hlt : (9 / 2 + 2 * kx ^ 2) * (delta / (2 * (9 / 2 + 2 * kx ^ 2))) < delta := by
    rw [show (9 / 2 + 2 * kx ^ 2) * (delta / (2 * (9 / 2 + 2 * kx ^ 2))) = delta / 2 by field_simp]
    linarith
  exact ⟨(e1 kx u u1 u2 h1 h2 q _ hn (by positivity) hb 0 (by omega) j hj).trans_lt hlt,
    fun i hi => (e2 kx u u1 u2 h1 h2 q _ hn (by positivity) hb i hi j hj).trans_lt hlt,
    fun i hi => (e4 kx u u1 u2 h1 h2 q _ hn (by positivity) hb i hi j hj).trans_lt hlt⟩

/-- C116: for smooth solutions the errors decrease like `2^n / (n - 2)!` times the derivative of order `n + 1`. -/
theorem C116_smooth (hn : 2 ≤ n) (hR : Rule n pts w) (kx : ℝ) {u : ℝ → ℝ} (hu : ContDiff ℝ (n + 1 : ℕ) u) {A : ℝ} (hA : 0 < A)
    (hd : ∀ x ∈ Set.Icc (-1 : ℝ) 1, |iteratedDeriv (n + 1) u x| ≤ A) {j : ℕ} (hj : j ≤ n) :
    let E := (9 / 2 + 2 * kx ^ 2) * (A * 2 ^ (n - 1) / (n - 2).factorial)
    let f := fun x => -iteratedDeriv 2 u x + kx ^ 2 * u x
    |uq1 n pts w kx (u (-1)) (u 1) (fun j => f (xx 1 pts 0 j)) j - u (xx 1 pts 0 j)| ≤ E ∧
    (∀ i < 2, |uqTwo n pts w kx (u (-1)) (u 1) (fun i j => f (xx 2 pts i j)) i j - u (xx 2 pts i j)| ≤ E) ∧
    (∀ i < 4, |uqFour n pts w kx (u (-1)) (u 1) (fun i j => f (xx 4 pts i j)) i j - u (xx 4 pts i j)| ≤ E) := by
  obtain ⟨k, rfl⟩ : ∃ k, n = k + 2 := ⟨n - 2, by omega⟩
  intro E f
  obtain ⟨h1, h2, -, q, hqd, hb⟩ := taylor_second hu hd
  replace hqd : q.natDegree + 2 ≤ k + 2 := by omega
  obtain ⟨e1, e2, e4⟩ := C116_error hn hR
  have hpos : 0 < A * 2 ^ (k + 1) / k.factorial := by positivity
  exact ⟨e1 kx u _ _ (fun x _ => h1 x) (fun x _ => h2 x) q _ hqd hpos hb 0 (by omega) j hj,
    fun i hi => e2 kx u _ _ (fun x _ => h1 x) (fun x _ => h2 x) q _ hqd hpos hb i hi j hj,
    fun i hi => e4 kx u _ _ (fun x _ => h1 x) (fun x _ => h2 x) q _ hqd hpos hb i hi j hj⟩

/-- With the rules that exist: `u = cos x` is computed to within `(9/2 + 2 kx^2) 2^(n-1)/(n-2)!` at every `n`. -/
example (n : ℕ) (hn : 2 ≤ n) (kx : ℝ) : ∃ pts w, Rule n pts w ∧ ∀ j ≤ n, ∀ i < 4,
    |uqFour n pts w kx (Real.cos (-1)) (Real.cos 1) (fun i j => -iteratedDeriv 2 Real.cos (xx 4 pts i j) + kx ^ 2 * Real.cos (xx 4 pts i j)) i j -
      Real.cos (xx 4 pts i j)| ≤ (9 / 2 + 2 * kx ^ 2) * (1 * 2 ^ (n - 1) / (n - 2).factorial) := by
  obtain ⟨pts, w, hR, -⟩ := C116_rule n
  refine ⟨pts, w, hR, fun j hj => (C116_smooth hn hR kx Real.contDiff_cos one_pos (fun x _ => ?_) hj).2.2⟩
  exact Real.abs_iteratedDeriv_cos_le_one (n + 1) x

end SpectralDNS.Leg

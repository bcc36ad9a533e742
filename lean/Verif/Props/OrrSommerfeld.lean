import Verif.Model.OrrSommerfeld
import Verif.Spec.OrrSommerfeld
import Verif.Lemmas.MKM
import Mathlib.LinearAlgebra.Eigenspace.Triangularizable
import Mathlib.Analysis.Complex.Polynomial.Basic

/-!
# C88: the Orr-Sommerfeld problem
-/

namespace SpectralDNS.Channel.OrrSommerfeld

open Polynomial Periodic Spec.Field Spec.OrrSommerfeld

/-! ## The eigenvalue problem -/

theorem entryM_test (q : Quad) (N a b d : ℕ) (g : ℝ[X]) (test trial : ℕ → ℝ[X]) (v : Fin b → ℂ) :
    matC (entryM q N g test trial d a b) v =
      scalarProduct q N test (g.map Complex.ofRealHom * Polynomial.derivative^[d] (expandC trial v)) := by
  funext i
  rw [expandC_apply, Polynomial.iterate_derivative_sum, Finset.mul_sum, map_sum, Finset.sum_apply]
  simp only [matC, Matrix.toLin'_apply, Matrix.mulVec, dotProduct, Matrix.map_apply]
  refine Finset.sum_congr rfl fun j _ => ?_
  rw [Polynomial.iterate_derivative_smul, mul_smul_comm, map_smul, Pi.smul_apply, smul_eq_mul, mul_comm]
  congr 1
  rw [Polynomial.iterate_derivative_map, ← Polynomial.map_mul, scalarProduct_apply, entryM, quadrature_apply]
  push_cast
  refine Finset.sum_congr rfl fun m _ => ?_
  rw [eval_ofReal, Polynomial.eval_mul, Polynomial.eval_mul]
  push_cast
  ring

/-- **C88 (matrices).**  The generalised eigenvalue problem that `assemble` sets up is the Orr-Sommerfeld equation tested with the
biharmonic functions. -/
theorem C88_matrices (q : Quad) (n : ℕ) (a Re : ℝ) (c : ℂ) (v : Fin n → ℂ) :
    osA q n a Re v = c • osB q n a Re v ↔ scalarProduct (a := n) q (n + 4) psi (op a Re c (expandC psi v)) = 0 := by
  rw [← sub_eq_zero]
  have e : osA q n a Re v - c • osB q n a Re v = scalarProduct (a := n) q (n + 4) psi (op a Re c (expandC psi v)) := by
    have h : op a Re c (expandC psi v) = derivative^[4] (expandC psi v) - (2 * a ^ 2 : ℂ) • derivative^[2] (expandC psi v)
        + (a ^ 4 : ℂ) • derivative^[0] (expandC psi v) - (2 * a * Re * Complex.I : ℂ) • derivative^[0] (expandC psi v)
        - (Complex.I * a * Re : ℂ) • ((1 - X ^ 2 : ℝ[X]).map Complex.ofRealHom * derivative^[2] (expandC psi v)
          - (a ^ 2 : ℂ) • ((1 - X ^ 2 : ℝ[X]).map Complex.ofRealHom * derivative^[0] (expandC psi v)))
        - c • (-Re * a * Complex.I : ℂ) • (derivative^[2] (expandC psi v) - (a ^ 2 : ℂ) • derivative^[0] (expandC psi v)) := by
      simp only [op, Function.iterate_succ, Function.iterate_zero, Function.comp, id, derivative_sub, derivative_mul, derivative_C, zero_mul,
        zero_add, Polynomial.map_sub, Polynomial.map_one, Polynomial.map_pow, map_X]
      simp only [smul_eq_C_mul, C_mul, C_neg, C_pow, map_ofNat]
      ring
    rw [h]
    simp only [osA, osB, LinearMap.sub_apply, LinearMap.add_apply, LinearMap.smul_apply, map_sub, map_add, map_smul, entry_test, entryM_test]
  rw [e]

/-- **C88 (eigenvalues exist).**  `B` is invertible, so the generalised problem has an eigenvalue at every resolution. -/
theorem C88_eigenvalue (q : Quad) (n : ℕ) (a Re : ℝ) (ha : a ≠ 0) (hRe : Re ≠ 0) :
    Function.Bijective (osB q n a Re) ∧ (0 < n → ∃ (c : ℂ) (v : Fin n → ℂ), v ≠ 0 ∧ osA q n a Re v = c • osB q n a Re v) := by
  have hb : Function.Bijective (osB q n a Re) := by
    have h := helmholtz_bijective q (n + 4) n psi 4 le_rfl (by omega) degree_psi (fun x => by
      obtain ⟨r, hr⟩ := expand_psi x
      exact ⟨(1 - X ^ 2) * r, by rw [hr]; ring⟩) (a ^ 2) (sq_nonneg a)
    have hz : (Re * a * Complex.I : ℂ) ≠ 0 := by simp [ha, hRe]
    have e : (osB q n a Re : (Fin n → ℂ) → Fin n → ℂ) = fun v => (Re * a * Complex.I : ℂ) •
        (-matC (entry q (n + 4) psi psi 2 n n) v + ((a ^ 2 : ℝ) : ℂ) • matC (entry q (n + 4) psi psi 0 n n) v) := by
      funext v
      simp only [osB, LinearMap.smul_apply, LinearMap.sub_apply]
      rw [show (-Re * a * Complex.I : ℂ) = -(Re * a * Complex.I) by ring, neg_smul, ← smul_neg]
      push_cast
      congr 1
      abel
    rw [e]
    have hs : Function.Bijective fun w : Fin n → ℂ => (Re * a * Complex.I : ℂ) • w :=
      (LinearEquiv.smulOfNeZero ℂ (Fin n → ℂ) _ hz).bijective
    exact hs.comp h
  refine ⟨hb, fun hn => ?_⟩
  have : Nonempty (Fin n) := ⟨⟨0, hn⟩⟩
  let E := LinearEquiv.ofBijective (osB q n a Re) hb
  obtain ⟨c, hc⟩ := Module.End.exists_eigenvalue (E.symm.toLinearMap ∘ₗ osA q n a Re : Module.End ℂ (Fin n → ℂ))
  obtain ⟨v, hv⟩ := hc.exists_hasEigenvector
  refine ⟨c, v, hv.2, ?_⟩
  have h := congrArg E hv.apply_eq_smul
  simp only [LinearMap.comp_apply, LinearEquiv.coe_coe, LinearEquiv.apply_symm_apply, map_smul] at h
  exact h

/-- **C88 (selection).**  `get_eigval(1)` is an eigenvalue with the largest imaginary part; for `nx` at most `nx - 1` eigenvalues have a larger
one, and at least `nx` have one that is not smaller. -/
theorem C88_selection {m : ℕ} (ev : Fin m → ℂ) (indices : Equiv.Perm (Fin m)) (hs : Monotone fun i => (ev (indices i)).im)
    (nx : ℕ) (h1 : 1 ≤ nx) (hm : nx ≤ m) :
    (Finset.univ.filter fun i => (ev (getEigval indices nx h1 hm)).im < (ev i).im).card < nx ∧
      nx ≤ (Finset.univ.filter fun i => (ev (getEigval indices nx h1 hm)).im ≤ (ev i).im).card ∧
      (nx = 1 → ∀ i, (ev i).im ≤ (ev (getEigval indices nx h1 hm)).im) := by
  have hsub : (Finset.univ.filter fun i => (ev (getEigval indices nx h1 hm)).im < (ev i).im) ⊆
      (Finset.univ.filter fun i : Fin m => m - nx < (i : ℕ)).map indices.toEmbedding := fun i hi => by
    rw [Finset.mem_map]
    refine ⟨indices.symm i, ?_, by simp⟩
    simp only [Finset.mem_filter, Finset.mem_univ, true_and] at hi ⊢
    by_contra hc
    have := hs (show indices.symm i ≤ ⟨m - nx, by omega⟩ from not_lt.1 hc)
    simp only [Equiv.apply_symm_apply] at this
    exact absurd hi (not_lt.2 this)
  have hsup : (Finset.univ.filter fun i : Fin m => m - nx ≤ (i : ℕ)).map indices.toEmbedding ⊆
      (Finset.univ.filter fun i => (ev (getEigval indices nx h1 hm)).im ≤ (ev i).im) := fun i hi => by
    obtain ⟨j, hj, rfl⟩ := Finset.mem_map.1 hi
    simp only [Finset.mem_filter, Finset.mem_univ, true_and] at hj ⊢
    exact hs (show (⟨m - nx, by omega⟩ : Fin m) ≤ j from hj)
  have c1 : (Finset.univ.filter fun i : Fin m => m - nx < (i : ℕ)).card = nx - 1 := by
    have e := Fin.card_Ioi (⟨m - nx, by omega⟩ : Fin m)
    rw [show m - 1 - (m - nx) = nx - 1 by omega] at e
    rw [← e]
    congr 1
    ext i
    simp [Fin.lt_def]
  have c2 : (Finset.univ.filter fun i : Fin m => m - nx ≤ (i : ℕ)).card = nx := by
    have e := Fin.card_Ici (⟨m - nx, by omega⟩ : Fin m)
    rw [show m - (m - nx) = nx by omega] at e
    refine Eq.trans ?_ e
    congr 1
    ext i
    simp [Fin.le_def]
  refine ⟨?_, ?_, ?_⟩
  · have := Finset.card_le_card hsub
    rw [Finset.card_map, c1] at this
    omega
  · have := Finset.card_le_card hsup
    rwa [Finset.card_map, c2] at this
  · rintro rfl i
    have := hs (show indices.symm i ≤ ⟨m - 1, by omega⟩ from Nat.le_sub_one_of_lt (indices.symm i).2)
    simpa [getEigval] using this

/-! ## The flow -/

/-- A wave with wavenumber one and phase speed `c`. -/
noncomputable def wave (P : ℂ[X]) (c : ℂ) : Flow := fun t x y _ => (P.eval (x : ℂ) * Complex.exp (Complex.I * (y - c * t))).re

theorem hasDerivAt_re {f : ℝ → ℂ} {f' : ℂ} {s : ℝ} (h : HasDerivAt f f' s) : deriv (fun s => (f s).re) s = f'.re := by
  have : HasDerivAt (fun s => (f s).re) f'.re s := Complex.reCLM.hasFDerivAt.comp_hasDerivAt s h
  exact this.deriv

theorem dx_wave (P : ℂ[X]) (c : ℂ) (t : ℝ) : dx (wave P c t) = wave (derivative P) c t := by
  funext x y z
  have h : HasDerivAt (fun s : ℝ => P.eval (s : ℂ)) ((derivative P).eval (x : ℂ)) x := P.hasDerivAt (x : ℂ) |>.comp_ofReal
  exact hasDerivAt_re (h.mul_const _)

theorem dy_wave (P : ℂ[X]) (c : ℂ) (t : ℝ) : dy (wave P c t) = wave (C Complex.I * P) c t := by
  funext x y z
  have h0 : HasDerivAt (fun s : ℝ => (s : ℂ)) 1 y := (hasDerivAt_id (y : ℂ)).comp_ofReal
  have h : HasDerivAt (fun s : ℝ => Complex.exp (Complex.I * (s - c * t))) (Complex.exp (Complex.I * (y - c * t)) * (Complex.I * 1)) y :=
    ((h0.sub_const _).const_mul Complex.I).cexp
  refine (hasDerivAt_re (h.const_mul (P.eval (x : ℂ)))).trans ?_
  simp only [wave, eval_mul, eval_C]
  congr 1; ring

theorem ddt_wave (P : ℂ[X]) (c : ℂ) : ddt (wave P c) = wave (C (-(Complex.I * c)) * P) c := by
  funext t x y z
  have h0 : HasDerivAt (fun s : ℝ => (s : ℂ)) 1 t := (hasDerivAt_id (t : ℂ)).comp_ofReal
  have h : HasDerivAt (fun s : ℝ => Complex.exp (Complex.I * (y - c * s))) (Complex.exp (Complex.I * (y - c * t)) * (Complex.I * -(c * 1))) t :=
    (((h0.const_mul c).const_sub _).const_mul Complex.I).cexp
  refine (hasDerivAt_re (h.const_mul (P.eval (x : ℂ)))).trans ?_
  simp only [wave, eval_mul, eval_C]
  congr 1; ring

theorem wave_sub (P R : ℂ[X]) (c : ℂ) (t x y z : ℝ) : wave P c t x y z - wave R c t x y z = wave (P - R) c t x y z := by
  simp only [wave, eval_sub, sub_mul, Complex.sub_re]

theorem wave_add (P R : ℂ[X]) (c : ℂ) (t x y z : ℝ) : wave P c t x y z + wave R c t x y z = wave (P + R) c t x y z := by
  simp only [wave, eval_add, add_mul, Complex.add_re]

theorem wave_mul (r : ℝ) (P : ℂ[X]) (c : ℂ) (t x y z : ℝ) : r * wave P c t x y z = wave (C (r : ℂ) * P) c t x y z := by
  simp only [wave, eval_mul, eval_C, mul_assoc, Complex.re_ofReal_mul]

/-- The flow of `initOS`, and its difference to the parabola. -/
noncomputable def flowU (eps : ℝ) {m : ℕ} (v : Fin m → ℂ) (c : ℂ) : Flow := fun t x y _ => pointU eps (interp v x).1 c t y
@[inherit_doc flowU] noncomputable def flowV (eps : ℝ) {m : ℕ} (v : Fin m → ℂ) (c : ℂ) : Flow := fun t x y _ => pointV eps x (interp v x).2 c t y
@[inherit_doc flowU] noncomputable def pertV (eps : ℝ) {m : ℕ} (v : Fin m → ℂ) (c : ℂ) : Flow := fun t x y z => flowV eps v c t x y z - (1 - x ^ 2)

theorem flowU_wave (eps : ℝ) {m : ℕ} (v : Fin m → ℂ) (c : ℂ) : flowU eps v c = wave (C (-(eps * Complex.I)) * expandC psi v) c := by
  funext t x y z
  simp only [flowU, pointU, interp, wave, eval_mul, eval_C]
  rw [← Complex.re_ofReal_mul]
  congr 1
  push_cast; ring

theorem pertV_wave (eps : ℝ) {m : ℕ} (v : Fin m → ℂ) (c : ℂ) : pertV eps v c = wave (C (eps : ℂ) * derivative (expandC psi v)) c := by
  funext t x y z
  simp only [pertV, flowV, pointV, interp, wave, eval_mul, eval_C, add_sub_cancel_left]
  rw [← Complex.re_ofReal_mul]
  congr 1
  ring

theorem vort_pert (eps : ℝ) {m : ℕ} (v : Fin m → ℂ) (c : ℂ) :
    vort (flowU eps v c) (pertV eps v c) = wave (C (eps : ℂ) * (derivative (derivative (expandC psi v)) - expandC psi v)) c := by
  funext t x y z
  simp only [vort, curl2, flowU_wave, pertV_wave, dx_wave, dy_wave, wave_sub, derivative_mul, derivative_C, zero_mul, zero_add]
  congr 1
  have : (C Complex.I * C Complex.I : ℂ[X]) = -1 := by rw [← C_mul, Complex.I_mul_I]; simp
  simp only [C_neg, C_mul]
  linear_combination (C (eps : ℂ) * expandC psi v) * this

theorem deriv2_parabola (x : ℝ) : deriv (deriv fun s : ℝ => 1 - s ^ 2) x = -2 := by
  have h : (deriv fun s : ℝ => 1 - s ^ 2) = fun s => -(2 * s) := by
    funext s
    simp
  rw [h]
  simp

/-- **C88 (linear equation).**  The perturbation of `initOS` satisfies the linearised vorticity equation up to the residual of the
Orr-Sommerfeld equation. -/
theorem C88_linear (eps Re : ℝ) (hRe : Re ≠ 0) {m : ℕ} (v : Fin m → ℂ) (c : ℂ) (t x y z : ℝ) :
    linRes (1 / Re) (fun s => 1 - s ^ 2) (flowU eps v c) (pertV eps v c) t x y z =
      -(eps / Re) * ((op 1 Re c (expandC psi v)).eval (x : ℂ) * Complex.exp (Complex.I * (y - c * t))).re := by
  have hRe' : (Re : ℂ) ≠ 0 := by exact_mod_cast hRe
  simp only [linRes, vort_pert, deriv2_parabola, ddt_wave, dx_wave, dy_wave]
  rw [flowU_wave]
  simp only [wave]
  simp only [eval_mul, eval_C, eval_sub, op, derivative_sub, derivative_mul, derivative_C, zero_mul, zero_add, eval_add, eval_pow, eval_X,
    eval_one, eval_ofNat]
  rw [← Complex.re_ofReal_mul, ← Complex.re_ofReal_mul, mul_comm _ (-2 : ℝ), ← Complex.re_ofReal_mul, ← Complex.add_re, ← Complex.add_re, ← Complex.add_re,
    ← Complex.re_ofReal_mul, ← Complex.sub_re]
  congr 1
  push_cast
  field_simp
  ring_nf
  rw [Complex.I_sq]
  ring

/-- **C88 (full equation).**  For the full flow the products of the perturbation with itself are added. -/
theorem C88_full (eps Re : ℝ) {m : ℕ} (v : Fin m → ℂ) (c : ℂ) (t x y z : ℝ) :
    vortRes (1 / Re) (flowU eps v c) (flowV eps v c) t x y z = linRes (1 / Re) (fun s => 1 - s ^ 2) (flowU eps v c) (pertV eps v c) t x y z
      + (flowU eps v c t x y z * dx (vort (flowU eps v c) (pertV eps v c) t) x y z
        + pertV eps v c t x y z * dy (vort (flowU eps v c) (pertV eps v c) t) x y z) := by
  have hV : ∀ t x y z, flowV eps v c t x y z = pertV eps v c t x y z + (1 - x ^ 2) := fun t x y z => by simp [pertV]
  have hd : ∀ t x y z, dx (flowV eps v c t) x y z = dx (pertV eps v c t) x y z - 2 * x := fun t x y z => by
    have h1 : HasDerivAt (fun s => pertV eps v c t s y z) (dx (pertV eps v c t) x y z) x := by
      refine DifferentiableAt.hasDerivAt ?_
      rw [pertV_wave]
      have h : HasDerivAt (fun s : ℝ => (C (eps : ℂ) * derivative (expandC psi v)).eval (s : ℂ)) _ x := (Polynomial.hasDerivAt _ (x : ℂ)).comp_ofReal
      exact (Complex.reCLM.hasFDerivAt.comp_hasDerivAt x (h.mul_const _)).differentiableAt
    have h2 : HasDerivAt (fun s : ℝ => 1 - s ^ 2) (-(2 * x)) x := by
      have := (hasDerivAt_pow 2 x).const_sub 1
      simpa using this
    have h3 := (h1.add h2).deriv
    have e : (fun s => flowV eps v c t s y z) = (fun s => pertV eps v c t s y z) + fun s => 1 - s ^ 2 := by
      funext s; simp [hV]
    unfold Spec.Field.dx at h3 ⊢
    rw [e, h3]; ring
  have hvort : vort (flowU eps v c) (flowV eps v c) = fun t x y z => vort (flowU eps v c) (pertV eps v c) t x y z - 2 * x := by
    funext t x y z
    simp only [vort, curl2, hd]
    ring
  have hw := vort_pert eps v c
  set om := vort (flowU eps v c) (pertV eps v c)
  have e1 : ddt (fun t x y z => om t x y z - 2 * x) = ddt om := by
    funext t x y z; simp [ddt]
  have e2 : ∀ t, dy (fun x y z => om t x y z - 2 * x) = dy (om t) := fun t => by
    funext x y z; simp [dy]
  have e3 : ∀ t, dx (fun x y z => om t x y z - 2 * x) = fun x y z => dx (om t) x y z - 2 := fun t => by
    funext x y z
    have h1 : HasDerivAt (fun s => om t s y z) (dx (om t) x y z) x := by
      refine DifferentiableAt.hasDerivAt ?_
      rw [hw]
      have h : HasDerivAt (fun s : ℝ => (C (eps : ℂ) * (derivative (derivative (expandC psi v)) - expandC psi v)).eval (s : ℂ)) _ x :=
        (Polynomial.hasDerivAt _ (x : ℂ)).comp_ofReal
      exact (Complex.reCLM.hasFDerivAt.comp_hasDerivAt x (h.mul_const _)).differentiableAt
    have h2 : HasDerivAt (fun s : ℝ => 2 * s) 2 x := by simpa using (hasDerivAt_id x).const_mul (2 : ℝ)
    exact (h1.sub h2).deriv
  have e4 : ∀ t, dx (fun x y z => dx (om t) x y z - 2) = dx (dx (om t)) := fun t => by
    funext x y z; simp [Spec.Field.dx]
  simp only [vortRes, linRes, hvort, e1, e2, e3, e4, deriv2_parabola, hV]
  change _ = ddt om t x y z + _ + _ - _ + _
  ring

/-- **C88 (the flow).**  The flow of `initOS` conserves mass and does not move at the walls, at any time. -/
theorem C88_flow (eps : ℝ) {m : ℕ} (v : Fin m → ℂ) (c : ℂ) (t : ℝ) :
    DivergenceFree (flowU eps v c t) (flowV eps v c t) 0 ∧ NoSlip (flowU eps v c t) (flowV eps v c t) 0 := by
  have hy : dy (flowV eps v c t) = dy (pertV eps v c t) := by
    funext x y z
    simp [dy, pertV]
  have hwall : ∀ x : ℝ, x = -1 ∨ x = 1 → (expandC psi v).eval (x : ℂ) = 0 ∧ (derivative (expandC psi v)).eval (x : ℂ) = 0 := fun x hx => by
    have hp : ∀ j, (psi j).eval x = 0 ∧ (derivative (psi j)).eval x = 0 := fun j => by
      obtain ⟨h1, h2, h3, h4⟩ := psi_walls j
      rcases hx with rfl | rfl
      · exact ⟨h2, h4⟩
      · exact ⟨h1, h3⟩
    rw [← expandC_derivative, expandC_apply, expandC_apply, eval_finsetSum, eval_finsetSum]
    constructor <;> refine Finset.sum_eq_zero fun j _ => ?_ <;> rw [eval_smul, eval_ofReal] <;> simp [hp]
  refine ⟨fun x y z => ?_, fun x y z hx => ?_⟩
  · rw [hy, flowU_wave, pertV_wave, dx_wave, dy_wave, wave_add]
    simp [wave, Spec.Field.dz, derivative_mul]
  · obtain ⟨h1, h2⟩ := hwall x hx
    have hx2 : 1 - x ^ 2 = 0 := by rcases hx with rfl | rfl <;> norm_num
    refine ⟨?_, ?_, rfl, ?_⟩
    · simp [flowU, pointU, interp, h1]
    · simp [flowV, pointV, interp, h2, hx2]
    · rw [flowU_wave, dx_wave]
      simp [wave, derivative_mul, h2]

/-- **C88 (mode).**  For an eigenpair of the matrices the residual of the linearised equation is orthogonal, in the sum over the points of the
quadrature, to all the test functions, at all times and for all `y`. -/
theorem C88_mode (q : Quad) (n : ℕ) (eps Re : ℝ) (hRe : Re ≠ 0) (v : Fin n → ℂ) (c : ℂ) (h : osA q n 1 Re v = c • osB q n 1 Re v) (i : Fin n)
    (t y z : ℝ) :
    ∑ j ∈ Finset.range (n + 4), quadWeight q (n + 4) j * (psi i).eval (quadPoint q (n + 4) j) *
      linRes (1 / Re) (fun s => 1 - s ^ 2) (flowU eps v c) (pertV eps v c) t (quadPoint q (n + 4) j) y z = 0 := by
  have h0 := congrFun ((C88_matrices q n 1 Re c v).1 h) i
  rw [scalarProduct_apply] at h0
  simp only [C88_linear eps Re hRe]
  have e : ∀ j, quadWeight q (n + 4) j * (psi i).eval (quadPoint q (n + 4) j) *
      (-(eps / Re) * ((op 1 Re c (expandC psi v)).eval (quadPoint q (n + 4) j : ℂ) * Complex.exp (Complex.I * (y - c * t))).re) =
      (((-(eps / Re) : ℝ) : ℂ) * ((((quadWeight q (n + 4) j * (psi i).eval (quadPoint q (n + 4) j) : ℝ) : ℂ) *
        (op 1 Re c (expandC psi v)).eval (quadPoint q (n + 4) j : ℂ)) * Complex.exp (Complex.I * (y - c * t)))).re := fun j => by
    rw [Complex.re_ofReal_mul, mul_assoc ((_ : ℝ) : ℂ) _ (Complex.exp _), Complex.re_ofReal_mul]
    ring
  simp only [e]
  rw [← Complex.re_sum, ← Finset.mul_sum, ← Finset.sum_mul]
  have h1 : ∑ j ∈ Finset.range (n + 4), (((quadWeight q (n + 4) j * (psi i).eval (quadPoint q (n + 4) j) : ℝ) : ℂ) *
        (op 1 Re c (expandC psi v)).eval (quadPoint q (n + 4) j : ℂ)) = 0 := by
    simpa using h0
  rw [h1]; simp

/-! ## The measured energy -/

section energy

variable {N : Fin 2 → ℕ}

theorem sum_re_sq (hN : ∀ i, 0 < N i) (h3 : 3 ≤ N 0) (Z : ℂ) :
    ∑ p : Periodic.Grid N, (Z * Complex.exp (Complex.I * ((2 * Real.pi * ((p 0 : ℕ) : ℝ) / N 0 : ℝ) : ℂ))).re ^ 2 =
      (Fintype.card (Periodic.Grid N) : ℝ) * (Complex.normSq Z / 2) := by
  have hsq : ∀ w : ℂ, w.re ^ 2 = Complex.normSq w / 2 + (w ^ 2).re / 2 := fun w => by
    rw [Complex.normSq_apply, sq w, Complex.mul_re]; ring
  have hn : ∀ r : ℝ, Complex.normSq (Z * Complex.exp (Complex.I * (r : ℂ))) = Complex.normSq Z := fun r => by
    rw [map_mul, Complex.normSq_eq_norm_sq (Complex.exp _), mul_comm Complex.I, Complex.norm_exp_ofReal_mul_I]; simp
  have h0 := grid_sum_exp N hN ![2, 0]
  rw [if_neg (fun h => by
    have := h 0
    simp only [Matrix.cons_val_zero] at this
    have := Int.le_of_dvd (by norm_num) this
    omega)] at h0
  simp only [hsq, hn, Finset.sum_add_distrib, Finset.sum_const, Finset.card_univ, nsmul_eq_mul, ← Finset.sum_div, ← Complex.re_sum]
  have e : ∑ p : Periodic.Grid N, (Z * Complex.exp (Complex.I * ((2 * Real.pi * ((p 0 : ℕ) : ℝ) / N 0 : ℝ) : ℂ))) ^ 2 = 0 := by
    have : ∀ p : Periodic.Grid N, (Z * Complex.exp (Complex.I * ((2 * Real.pi * ((p 0 : ℕ) : ℝ) / N 0 : ℝ) : ℂ))) ^ 2 =
        Z ^ 2 * Complex.exp (2 * Real.pi * Complex.I * ∑ i, (((![2, 0] : Fin 2 → ℤ) i : ℤ) : ℂ) * ((p i : ℕ) : ℂ) / (N i : ℂ)) := fun p => by
      rw [mul_pow, ← Complex.exp_nat_mul, Fin.sum_univ_two]
      congr 2
      simp
      ring
    simp only [this]
    rw [← Finset.mul_sum, h0, mul_zero]
  rw [e]; simp

/-- The squares of the perturbation summed over the plane. -/
theorem pert_sum (q : Quad) (n : ℕ) (L : Fin 2 → ℝ) (hL : L 0 = 2 * Real.pi) (hN : ∀ i, 0 < N i) (h3 : 3 ≤ N 0) (eps : ℝ) {m : ℕ} (v : Fin m → ℂ)
    (c : ℂ) (t : ℝ) (j : Fin (n + 4)) : ∑ p : Periodic.Grid N, (initOS0 q n L eps v c t j p ^ 2 +
      (initOS1 q n L eps v c t j p - (1 - quadPoint q (n + 4) j ^ 2)) ^ 2) =
      exact c t * ((Fintype.card (Periodic.Grid N) : ℝ) * (eps ^ 2 * (Complex.normSq (interp v (quadPoint q (n + 4) j)).1 / 2) +
        eps ^ 2 * (Complex.normSq (interp v (quadPoint q (n + 4) j)).2 / 2))) := by
  have hexp : Complex.normSq (Complex.exp (-(Complex.I * (c * t)))) = exact c t := by
    rw [Complex.normSq_eq_norm_sq, Complex.norm_exp, exact, ← Real.exp_nat_mul]
    congr 1
    simp
    ring
  have hsplit : ∀ p : Periodic.Grid N, Complex.exp (Complex.I * (((L 0 * ((p 0 : ℕ) : ℝ) / N 0 : ℝ) : ℂ) - c * t)) =
      Complex.exp (-(Complex.I * (c * t))) * Complex.exp (Complex.I * ((2 * Real.pi * ((p 0 : ℕ) : ℝ) / N 0 : ℝ) : ℂ)) := fun p => by
    rw [← Complex.exp_add, hL]
    congr 1; ring
  simp only [initOS0, initOS1, pointU, pointV, add_sub_cancel_left, hsplit, Finset.sum_add_distrib, mul_pow, ← Finset.mul_sum, ← mul_assoc]
  rw [sum_re_sq hN h3, sum_re_sq hN h3]
  rw [mul_assoc Complex.I c]
  simp only [map_mul, hexp, Complex.normSq_I]
  ring

/-- **C88 (growth).**  The energy of the perturbation which `initialize` and `update` measure, of the flow of `initOS` at time `t`, is the one at
time zero times `exact`, at every resolution with three or more points. -/
theorem C88_growth (q : Quad) (n : ℕ) (L : Fin 2 → ℝ) (hL : L 0 = 2 * Real.pi) (hN : ∀ i, 0 < N i) (h3 : 3 ≤ N 0) {R : Type*} [Fintype R]
    (blocks : R → Utilities.Block (n + 4) (Periodic.Grid N)) (hb : Utilities.Tiles blocks) (eps : ℝ) {m : ℕ} (v : Fin m → ℂ) (c : ℂ) (t : ℝ) :
    pertEnergy q n L blocks (initOS0 q n L eps v c t) (initOS1 q n L eps v c t) =
      exact c t * pertEnergy q n L blocks (initOS0 q n L eps v c 0) (initOS1 q n L eps v c 0) := by
  have hsum := fun t (j : Fin (n + 4)) => pert_sum (N := N) q n L hL hN h3 eps v c t j
  unfold pertEnergy dxChannel Utilities.dx
  rw [dxRule_congr q _ (fun j => exact c t * (if h : j < n + 4 then Utilities.gather blocks (fun (j : Fin (n + 4)) p => initOS0 q n L eps v c 0 j p ^ 2 +
      (initOS1 q n L eps v c 0 j p - (1 - quadPoint q (n + 4) j ^ 2)) ^ 2) ⟨j, h⟩ else 0)) fun j hj => ?_, dxRule_smul]
  · ring
  · simp only [dif_pos hj, Utilities.gather_eq blocks hb]
    rw [hsum t ⟨j, hj⟩, hsum 0 ⟨j, hj⟩]
    simp [exact]

end energy

/-! ## The start of the run -/

section start

variable {N : Fin 2 → ℕ}

/-- A mode of the plane with wavenumber zero along `z`. -/
def modeY (hN : ∀ i, 0 < N i) (r : Fin (N 0)) : RModes N := fun i =>
  if h : i = 0 then ⟨r, by subst h; simp [rdim]⟩ else ⟨0, by
    have := hN i
    unfold rdim; split <;> omega⟩

theorem waves_modeY (hN : ∀ i, 0 < N i) (r : Fin (N 0)) :
    waves N 0 (modeY hN r) = (if 2 * (r : ℕ) < N 0 then ((r : ℕ) : ℤ) else ((r : ℕ) : ℤ) - N 0) ∧ waves N 1 (modeY hN r) = 0 := by
  constructor
  · simp [waves, modeY]
  · simp [waves, modeY]

/-- The three modes of the demo. -/
def modeP (hN : ∀ i, 0 < N i) (h3 : 3 ≤ N 0) : RModes N := modeY hN ⟨1, by omega⟩
@[inherit_doc modeP] def modeM (hN : ∀ i, 0 < N i) : RModes N := modeY hN ⟨N 0 - 1, by have := hN 0; omega⟩
@[inherit_doc modeP] def modeZ (hN : ∀ i, 0 < N i) : RModes N := modeY hN ⟨0, hN 0⟩

theorem waves_modeP (hN : ∀ i, 0 < N i) (h3 : 3 ≤ N 0) : waves N 0 (modeP hN h3) = 1 ∧ waves N 1 (modeP hN h3) = 0 := by
  obtain ⟨h1, h2⟩ := waves_modeY hN ⟨1, by omega⟩
  refine ⟨?_, h2⟩
  rw [modeP, h1, if_pos (by show 2 * 1 < N 0; omega)]; simp

theorem waves_modeM (hN : ∀ i, 0 < N i) (h3 : 3 ≤ N 0) : waves N 0 (modeM hN) = -1 ∧ waves N 1 (modeM hN) = 0 := by
  obtain ⟨h1, h2⟩ := waves_modeY hN ⟨N 0 - 1, by have := hN 0; omega⟩
  refine ⟨?_, h2⟩
  rw [modeM, h1, if_neg (by show ¬ 2 * (N 0 - 1) < N 0; omega)]
  show ((N 0 - 1 : ℕ) : ℤ) - N 0 = -1
  omega

theorem waves_modeZ (hN : ∀ i, 0 < N i) : waves N 0 (modeZ hN) = 0 ∧ waves N 1 (modeZ hN) = 0 := by
  obtain ⟨h1, h2⟩ := waves_modeY hN ⟨0, hN 0⟩
  refine ⟨?_, h2⟩
  rw [modeZ, h1, if_pos (by show 2 * 0 < N 0; have := hN 0; omega)]; simp

/-- The coefficients of a wave plus a mean. -/
noncomputable def waveArr (hN : ∀ i, 0 < N i) (h3 : 3 ≤ N 0) {a : ℕ} (A Z : Fin a → ℂ) (k : RModes N) : Fin a → ℂ := open Classical in
  (if k = modeP hN h3 then (1 / 2 : ℂ) • A else 0) + (if k = modeM hN then (1 / 2 : ℂ) • star A else 0) + (if k = modeZ hN then Z else 0)

theorem expandC_star (f : ℕ → ℝ[X]) {a : ℕ} (A : Fin a → ℂ) : expandC f (star A) = (expandC f A).map (starRingEnd ℂ) := by
  rw [expandC_apply, expandC_apply, Polynomial.map_sum]
  refine Finset.sum_congr rfl fun j _ => ?_
  rw [Polynomial.smul_eq_C_mul, Polynomial.smul_eq_C_mul, Polynomial.map_mul, Polynomial.map_C, Polynomial.map_map]
  congr 2
  ext r
  simp

theorem eval_star (f : ℕ → ℝ[X]) {a : ℕ} (A : Fin a → ℂ) (x : ℝ) : (expandC f (star A)).eval (x : ℂ) = (starRingEnd ℂ) ((expandC f A).eval (x : ℂ)) := by
  rw [expandC_star]
  have : ((x : ℝ) : ℂ) = (starRingEnd ℂ) (x : ℂ) := (Complex.conj_ofReal _).symm
  conv_lhs => rw [this, eval_map, eval₂_at_apply]

theorem rweight_of_zero {k : RModes N} (h : waves N 1 k = 0) : rweight N k = 1 := by
  have h' : waves N (Fin.last 1) k = 0 := h
  unfold rweight
  rw [if_pos (Or.inl h')]

/-- The function with these coefficients. -/
theorem fieldOf_waveArr (hN : ∀ i, 0 < N i) (h3 : 3 ≤ N 0) (L : Fin 2 → ℝ) (hL : L 0 = 2 * Real.pi) (f : ℕ → ℝ[X]) {a : ℕ} (A Z : Fin a → ℂ) (x y z : ℝ) :
    fieldOf N L (fun k => expandC f (waveArr hN h3 A Z k)) x y z =
      ((expandC f A).eval (x : ℂ) * Complex.exp (Complex.I * y)).re + ((expandC f Z).eval (x : ℂ)).re := by
  classical
  have hs : ∀ k, scaledWaves N L 0 k = waves N 0 k := fun k => by
    rw [scaledWaves, hL, div_self (by positivity), one_mul]
  have hexp : ∀ k, (rweight N k : ℂ) * (expandC f (waveArr hN h3 A Z k)).eval (x : ℂ) *
      Complex.exp (Complex.I * ((scaledWaves N L 0 k : ℝ) * y + (scaledWaves N L 1 k : ℝ) * z)) =
      (if k = modeP hN h3 then (1 / 2 : ℂ) * (expandC f A).eval (x : ℂ) * Complex.exp (Complex.I * y) else 0) +
      (if k = modeM hN then (1 / 2 : ℂ) * (starRingEnd ℂ) ((expandC f A).eval (x : ℂ)) * Complex.exp (Complex.I * -y) else 0) +
      (if k = modeZ hN then (expandC f Z).eval (x : ℂ) else 0) := fun k => by
    have hP := waves_modeP hN h3
    have hM := waves_modeM hN h3
    have hZ := waves_modeZ hN
    rw [waveArr, map_add, map_add, eval_add, eval_add, mul_add, mul_add, add_mul, add_mul, hs]
    congr 1
    · congr 1
      · split_ifs with h
        · rw [h, rweight_of_zero hP.2, hP.1, scaledWaves, hP.2, map_smul, eval_smul]; simp
        · simp
      · split_ifs with h
        · rw [h, rweight_of_zero hM.2, hM.1, scaledWaves, hM.2, map_smul, eval_smul, eval_star]; simp
        · simp
    · split_ifs with h
      · rw [h, rweight_of_zero hZ.2, hZ.1, scaledWaves, hZ.2]; simp
      · simp
  unfold fieldOf field
  rw [Finset.sum_congr rfl fun k _ => hexp k]
  simp only [Finset.sum_add_distrib, Finset.sum_ite_eq', Finset.mem_univ, if_true]
  have hc : Complex.exp (Complex.I * -y) = (starRingEnd ℂ) (Complex.exp (Complex.I * y)) := by
    rw [← Complex.exp_conj]; simp
  rw [hc, mul_assoc, mul_assoc, ← map_mul, ← mul_add, Complex.add_re]
  congr 1
  rw [Complex.add_conj]
  simp

/-- The transform of the values of the function gives the coefficients. -/
theorem forward_waveArr (q : Quad) (n : ℕ) (hN : ∀ i, 0 < N i) (h3 : 3 ≤ N 0) (f : ℕ → ℝ[X]) {a : ℕ} (s : ℕ) (ha : a + s ≤ n + 4)
    (hf : ∀ j, (f j).degree = (j + s : ℕ)) (A Z : Fin a → ℂ) (hZ : star Z = Z) (k : RModes N) :
    forwardWall q (n + 4) f (fun j => (rspace N N).forward
      (synth (rspace N N) (fun j : Fin (n + 4) => quadPoint q (n + 4) j) (fun k => expandC f (waveArr hN h3 A Z k)) j) k) = waveArr hN h3 A Z k := by
  classical
  have wP := waves_modeP hN h3
  have wM := waves_modeM hN h3
  have wZ := waves_modeZ hN
  have eP : ∀ k, k = modeP hN h3 ↔ waves N 0 k = 1 ∧ waves N 1 k = 0 := fun k =>
    ⟨fun h => by rw [h]; exact wP, fun h => waves_inj N _ _ fun i => by fin_cases i <;> simp [h.1, h.2, wP.1, wP.2]⟩
  have eM : ∀ k, k = modeM hN ↔ waves N 0 k = -1 ∧ waves N 1 k = 0 := fun k =>
    ⟨fun h => by rw [h]; exact wM, fun h => waves_inj N _ _ fun i => by fin_cases i <;> simp [h.1, h.2, wM.1, wM.2]⟩
  have eZ : ∀ k, k = modeZ hN ↔ waves N 0 k = 0 ∧ waves N 1 k = 0 := fun k =>
    ⟨fun h => by rw [h]; exact wZ, fun h => waves_inj N _ _ fun i => by fin_cases i <;> simp [h.1, h.2, wZ.1, wZ.2]⟩
  have hinv : ∀ j, (rspace N N).forward (synth (rspace N N) (fun j : Fin (n + 4) => quadPoint q (n + 4) j) (fun k => expandC f (waveArr hN h3 A Z k)) j) k =
      (expandC f (waveArr hN h3 A Z k)).eval ((quadPoint q (n + 4) (j : Fin (n + 4)) : ℝ) : ℂ) := fun j => by
    unfold synth
    rw [rspace_inverse N N hN fun _ => le_rfl]
    · intro k hk
      have : waveArr hN h3 A Z k = 0 := by
        have hn : ∀ l, waves N 1 l = 0 → (waves N 0 l = 1 ∨ waves N 0 l = -1 ∨ waves N 0 l = 0) → k ≠ l := by
          rintro l h1 h0 rfl
          have : nyquistMask N k = true := by
            rw [nyquistMask_iff]
            intro i
            have := hN i
            fin_cases i
            · simp only [Fin.zero_eta]; rcases h0 with h | h | h <;> rw [h] <;> constructor <;> omega
            · simp only [Fin.mk_one]; rw [h1]; simp only [Fin.mk_one] at this; constructor <;> omega
          rw [this] at hk; cases hk
        rw [waveArr, if_neg (hn _ wP.2 (Or.inl wP.1)), if_neg (hn _ wM.2 (Or.inr (Or.inl wM.1))), if_neg (hn _ wZ.2 (Or.inr (Or.inr wZ.1)))]
        simp
      beta_reduce
      rw [this]; simp
    · intro k k' h
      beta_reduce
      have : waveArr hN h3 A Z k' = star (waveArr hN h3 A Z k) := by
        have a1 : k' = modeP hN h3 ↔ k = modeM hN := by
          rw [eP, eM, h 0, h 1]; constructor <;> rintro ⟨h1, h2⟩ <;> constructor <;> omega
        have a2 : k' = modeM hN ↔ k = modeP hN h3 := by
          rw [eP, eM, h 0, h 1]; constructor <;> rintro ⟨h1, h2⟩ <;> constructor <;> omega
        have a3 : k' = modeZ hN ↔ k = modeZ hN := by
          rw [eZ, eZ, h 0, h 1]; constructor <;> rintro ⟨h1, h2⟩ <;> constructor <;> omega
        simp only [waveArr, a1, a2, a3, star_add, apply_ite star, star_smul, star_star, star_zero, hZ]
        rw [add_comm (ite _ _ _) (ite _ _ _)]
        simp
      rw [this, eval_star]
  simp only [hinv]
  have h := mass_inv q (n + 4) a f s ha (by omega) hf (waveArr hN h3 A Z k)
  refine Eq.trans ?_ h
  show matC _ _ = matC _ _
  congr 1
  funext i
  rw [scalarProduct_apply, Finset.sum_range]
  simp

/-- The coefficients of a function in a larger space. -/
theorem exists_pad (f : ℕ → ℝ[X]) {m n : ℕ} (h : m ≤ n) (v : Fin m → ℂ) : ∃ w : Fin n → ℂ, expandC f w = expandC f v := by
  refine ⟨fun i => if h : (i : ℕ) < m then v ⟨i, h⟩ else 0, ?_⟩
  rw [expandC_apply, expandC_apply]
  set F : ℕ → ℂ[X] := fun i => if h : i < m then v ⟨i, h⟩ • (f i).map Complex.ofRealHom else 0 with hF
  have e1 : ∀ i : Fin n, (if h : (i : ℕ) < m then v ⟨i, h⟩ else 0) • (f i).map Complex.ofRealHom = F i := fun i => by
    rw [hF]; beta_reduce; split_ifs <;> simp
  have e2 : ∀ i : Fin m, v i • (f i).map Complex.ofRealHom = F i := fun i => by
    simp [hF]
  rw [Finset.sum_congr rfl fun i _ => e1 i, Finset.sum_congr rfl fun i _ => e2 i, Fin.sum_univ_eq_sum_range F n, Fin.sum_univ_eq_sum_range F m]
  refine (Finset.sum_subset (Finset.range_mono h) fun i _ hi => ?_).symm
  simp only [Finset.mem_range] at hi
  rw [hF]; beta_reduce; rw [dif_neg hi]

theorem expandC_parabola (n : ℕ) : expandC phi (Pi.single (0 : Fin (n + 2)) (1 / 2 : ℂ)) = 1 - X ^ 2 := by
  rw [expandC_apply, Finset.sum_eq_single 0 (fun j _ hj => by simp [hj]) (by simp), Pi.single_eq_same]
  have h : phi ((0 : Fin (n + 2)) : ℕ) = 2 - 2 * X ^ 2 := by
    simp [phi, Chebyshev.T_two]
    ring
  rw [h]
  simp only [Polynomial.map_sub, Polynomial.map_mul, Polynomial.map_pow, map_X, Polynomial.map_ofNat, smul_eq_C_mul]
  have h2 : (C (1 / 2 : ℂ) * 2 : ℂ[X]) = 1 := by
    rw [show (2 : ℂ[X]) = C 2 from rfl, ← C_mul]; norm_num
  linear_combination (1 - X ^ 2) * h2

/-- What `set_velocity` makes of the flow of `initOS`. -/
theorem velOS_eq (q : Quad) (n : ℕ) (hN : ∀ i, 0 < N i) (h3 : 3 ≤ N 0) (L : Fin 2 → ℝ) (hL : L 0 = 2 * Real.pi) (hL1 : L 1 ≠ 0) (eps : ℝ) {m : ℕ} (hm : m ≤ n)
    (v : Fin m → ℂ) (c : ℂ) (t : ℝ) :
    ∃ (A : Fin n → ℂ) (B : Fin (n + 2) → ℂ),
      expandC psi A = C (-(eps * Complex.I) * Complex.exp (-(Complex.I * (c * t)))) * expandC psi v ∧
      expandC phi B = C (eps * Complex.exp (-(Complex.I * (c * t)))) * derivative (expandC psi v) ∧
      velOS (N := N) q n L eps v c t = ⟨waveArr hN h3 A 0, waveArr hN h3 B (Pi.single 0 (1 / 2)), fun _ => 0⟩ := by
  obtain ⟨w, hw⟩ := exists_pad psi hm v
  obtain ⟨d, hd⟩ := derivative_psi n w
  have hA : expandC psi ((-(eps * Complex.I) * Complex.exp (-(Complex.I * (c * t)))) • w) =
      C (-(eps * Complex.I) * Complex.exp (-(Complex.I * (c * t)))) * expandC psi v := by
    rw [map_smul, hw, smul_eq_C_mul]
  have hB : expandC phi ((eps * Complex.exp (-(Complex.I * (c * t)))) • d) =
      C (eps * Complex.exp (-(Complex.I * (c * t)))) * derivative (expandC psi v) := by
    rw [map_smul, hd, hw, smul_eq_C_mul]
  have hL' : ∀ i, L i ≠ 0 := fun i => by
    fin_cases i
    · show L 0 ≠ 0; rw [hL]; positivity
    · exact hL1
  have hcoord : ∀ p : Periodic.Grid N, coord L N 0 p = L 0 * ((p 0 : ℕ) : ℝ) / N 0 := fun p => rfl
  have hexp : ∀ y : ℝ, Complex.exp (Complex.I * (y - c * t)) = Complex.exp (-(Complex.I * (c * t))) * Complex.exp (Complex.I * y) := fun y => by
    rw [← Complex.exp_add]; congr 1; ring
  refine ⟨_, _, hA, hB, ?_⟩
  have s0 : initOS0 (N := N) q n L eps v c t = synth (rspace N N) (fun j : Fin (n + 4) => quadPoint q (n + 4) j) 
      (fun k => expandC psi (waveArr hN h3 ((-(eps * Complex.I) * Complex.exp (-(Complex.I * (c * t)))) • w) 0 k)) := by
    rw [synth_eq L hL']
    funext j p
    rw [sample, fieldOf_waveArr hN h3 L hL, hA, initOS0, pointU, hcoord, hexp, map_zero, eval_zero, Complex.zero_re, add_zero, interp,
      ← Complex.re_ofReal_mul, eval_mul, eval_C]
    congr 1
    push_cast; ring
  have s1 : initOS1 (N := N) q n L eps v c t = synth (rspace N N) (fun j : Fin (n + 4) => quadPoint q (n + 4) j)
      (fun k => expandC phi (waveArr hN h3 ((eps * Complex.exp (-(Complex.I * (c * t)))) • d) (Pi.single 0 (1 / 2)) k)) := by
    rw [synth_eq L hL']
    funext j p
    rw [sample, fieldOf_waveArr hN h3 L hL, hB, initOS1, pointV, hcoord, hexp, expandC_parabola, interp, ← Complex.re_ofReal_mul, eval_mul, eval_C, add_comm]
    congr 1
    · congr 1; push_cast; ring
    · simp [← Complex.ofReal_pow]
  unfold velOS setVelocity
  congr 1
  · funext k
    rw [s0]
    exact forward_waveArr q n hN h3 psi 4 (by omega) degree_psi _ 0 (star_zero _) k
  · funext k
    rw [s1]
    refine forward_waveArr q n hN h3 phi 2 (by omega) degree_phi _ _ ?_ k
    funext i
    rw [Pi.star_apply]
    by_cases hi : i = 0
    · subst hi; simp
    · simp [hi]
  · funext k
    unfold fwdD
    have : (fun j : Fin (n + 4) => (rspace N N).forward (fun _ => 0) k) = 0 := by
      funext j; simp [rspace, dft]
    rw [this, map_zero]

/-- **C88 (start).**  The velocity with which the run starts is the flow of `initOS`, at every point of the channel. -/
theorem C88_start (q : Quad) (n : ℕ) (hN : ∀ i, 0 < N i) (h3 : 3 ≤ N 0) (L : Fin 2 → ℝ) (hL : L 0 = 2 * Real.pi) (hL1 : L 1 ≠ 0) (eps : ℝ) {m : ℕ} (hm : m ≤ n)
    (v : Fin m → ℂ) (c : ℂ) (t : ℝ) :
    let U := velOS (N := N) q n L eps v c t
    fieldU (chebWall q n) L U = flowU eps v c t ∧ fieldV (chebWall q n) L U = flowV eps v c t ∧ fieldW (chebWall q n) L U = 0 := by
  intro U
  obtain ⟨A, B, hA, hB, hU⟩ := velOS_eq q n hN h3 L hL hL1 eps hm v c t
  have hexp : ∀ y : ℝ, Complex.exp (Complex.I * (y - c * t)) = Complex.exp (-(Complex.I * (c * t))) * Complex.exp (Complex.I * y) := fun y => by
    rw [← Complex.exp_add]; congr 1; ring
  refine ⟨?_, ?_, ?_⟩
  · funext x y z
    show fieldOf N L (fun k => expandC psi (U.u k)) x y z = _
    rw [show U.u = waveArr hN h3 A 0 by rw [show U = _ from hU]]
    rw [fieldOf_waveArr hN h3 L hL, hA, map_zero, eval_zero, Complex.zero_re, add_zero, flowU, pointU, interp, hexp,
      ← Complex.re_ofReal_mul, eval_mul, eval_C]
    congr 1
    push_cast; ring
  · funext x y z
    show fieldOf N L (fun k => expandC phi (U.v k)) x y z = _
    rw [show U.v = waveArr hN h3 B (Pi.single 0 (1 / 2)) by rw [show U = _ from hU]]
    rw [fieldOf_waveArr hN h3 L hL, hB, flowV, pointV, hexp, expandC_parabola, interp, ← Complex.re_ofReal_mul, eval_mul, eval_C, add_comm]
    congr 1
    · simp [← Complex.ofReal_pow]
    · congr 1; ring
  · funext x y z
    show fieldOf N L (fun k => expandC phi (U.w k)) x y z = _
    rw [show U.w = fun _ => 0 by rw [show U = _ from hU]]
    simp [fieldOf, field]

/-- **C88 (first step).**  In a new context KMM starts with two levels: the state is the flow at `dt`, with its wall-normal vorticity, and the first
step of the Adams-Bashforth method uses the convection of the flows at `dt` and at zero. -/
theorem C88_first_step (q : Quad) (n : ℕ) (hN : ∀ i, 0 < N i) (h3 : 3 ≤ N 0) (L : Fin 2 → ℝ) (hL : L 0 = 2 * Real.pi) (hL1 : L 1 ≠ 0) (eps : ℝ) {m : ℕ} (hm : m ≤ n)
    (v : Fin m → ℂ) (c : ℂ) (k : Ctx (RModes N) (Fin n → ℂ) (Fin (n + 2) → ℂ)) (hG : k.G = waveGrid N L hN)
    (s : St (RModes N) (Fin n → ℂ) (Fin (n + 2) → ℂ)) (hs : s.g = 0) :
    let s0 := initState k q L eps v c s
    let U := velOS (N := N) q n L eps v c
    s0.U = U k.dt ∧ s0.U0 = U 0 ∧ (∀ t, vorticity k.G (U t) = 0) ∧ s0.g = 0 ∧
      (computeRHS k s0).1.H0 = maskVec k.mask (assembleAB (k.conv (U k.dt) (vorticity k.G (U k.dt))) (k.conv (U 0) (vorticity k.G (U 0)))) := by
  intro s0 U
  have hv : ∀ t, vorticity k.G (U t) = 0 := fun t => by
    obtain ⟨A, B, -, -, hU⟩ := velOS_eq q n hN h3 L hL hL1 eps hm v c t
    funext l
    simp only [vorticity, show U t = _ from hU, hG, waveGrid, smul_zero, zero_sub, Pi.zero_apply, neg_eq_zero]
    by_cases h : waves N 1 l = 0
    · simp [scaledWaves, h]
    · have hne : ∀ l', waves N 1 l' = 0 → l ≠ l' := by rintro l' h' rfl; exact h h'
      rw [waveArr, if_neg (hne _ (waves_modeP hN h3).2), if_neg (hne _ (waves_modeM hN h3).2), if_neg (hne _ (waves_modeZ hN).2)]
      simp
  refine ⟨rfl, rfl, hv, rfl, ?_⟩
  rw [hv, hv]
  show maskVec k.mask (assembleAB (k.conv (U k.dt) 0) (k.conv (U 0) s.g)) = _
  rw [hs]

/-- **C88 (start of KMMRK3).**  KMMRK3 starts from the flow at time zero with its wall-normal vorticity. -/
theorem C88_start_rk3 (q : Quad) (n : ℕ) (hN : ∀ i, 0 < N i) (h3 : 3 ≤ N 0) (L : Fin 2 → ℝ) (hL : L 0 = 2 * Real.pi) (hL1 : L 1 ≠ 0) (eps : ℝ) {m : ℕ} (hm : m ≤ n)
    (v : Fin m → ℂ) (c : ℂ) (k : Ctx (RModes N) (Fin n → ℂ) (Fin (n + 2) → ℂ)) (hG : k.G = waveGrid N L hN)
    (s : St3 (RModes N) (Fin n → ℂ) (Fin (n + 2) → ℂ)) (s' : St (RModes N) (Fin n → ℂ) (Fin (n + 2) → ℂ)) (hs : s'.g = 0) :
    let s0 := initState3 q L eps v c s
    s0.U = velOS (N := N) q n L eps v c 0 ∧ s0.g = vorticity k.G s0.U ∧ s0.U = (initState k q L eps v c s').U0 :=
  have h := C88_first_step q n hN h3 L hL hL1 eps hm v c k hG s' hs
  ⟨rfl, (h.2.2.1 0).symm, rfl⟩

end start

/-! ## Concrete cases -/

/-- The eigenvalue problem of `N = 5` points has a solution with a non-zero function, whose flow satisfies the tested equation. -/
example : ∃ (c : ℂ) (v : Fin 1 → ℂ), v ≠ 0 ∧ ∀ (i : Fin 1) (t y z : ℝ),
    ∑ j ∈ Finset.range 5, quadWeight .GC 5 j * (psi i).eval (quadPoint .GC 5 j) *
      linRes (1 / 8000) (fun s => 1 - s ^ 2) (flowU 1e-7 v c) (pertV 1e-7 v c) t (quadPoint .GC 5 j) y z = 0 := by
  obtain ⟨c, v, hv, h⟩ := (C88_eigenvalue .GC 1 1 8000 one_ne_zero (by norm_num)).2 one_pos
  exact ⟨c, v, hv, fun i t y z => C88_mode .GC 1 1e-7 8000 (by norm_num) v c h i t y z⟩

/-- Three eigenvalues, of which the second is unstable. -/
example : getEigval (Equiv.swap (1 : Fin 3) 2) 1 le_rfl (by norm_num) = 1 ∧
    Monotone fun i => ((![-Complex.I, Complex.I, 0] : Fin 3 → ℂ) (Equiv.swap (1 : Fin 3) 2 i)).im := by
  refine ⟨by decide, fun i j h => ?_⟩
  fin_cases i <;> fin_cases j <;> revert h <;> simp [Equiv.swap_apply_def] <;> norm_num <;> decide

/-- The energy of a growing wave on four by two points, all on one rank. -/
example (q : Quad) : pertEnergy (N := ![4, 2]) q 1 ![2 * Real.pi, 1] (fun _ : Unit => ⟨Finset.univ, Finset.univ⟩)
    (initOS0 q 1 ![2 * Real.pi, 1] 1 ![1] Complex.I 1) (initOS1 q 1 ![2 * Real.pi, 1] 1 ![1] Complex.I 1) =
    Real.exp 2 * pertEnergy (N := ![4, 2]) q 1 ![2 * Real.pi, 1] (fun _ : Unit => ⟨Finset.univ, Finset.univ⟩)
      (initOS0 q 1 ![2 * Real.pi, 1] 1 ![1] Complex.I 0) (initOS1 q 1 ![2 * Real.pi, 1] 1 ![1] Complex.I 0) := by
  rw [C88_growth q 1 ![2 * Real.pi, 1] rfl (fun i => by fin_cases i <;> simp) (by simp) _ (fun j k => ⟨(), by simp, by simp⟩)]
  simp [exact]

/-- The start on a grid of 5 x 4 x 2 points. -/
example (q : Quad) (t : ℝ) : fieldU (chebWall q 1) ![2 * Real.pi, 1] (velOS (N := ![4, 2]) q 1 ![2 * Real.pi, 1] 1 ![1] Complex.I t) =
    flowU 1 ![1] Complex.I t :=
  (C88_start q 1 (fun i => by fin_cases i <;> simp) (by simp) _ rfl (by simp) 1 le_rfl ![1] Complex.I t).1

end SpectralDNS.Channel.OrrSommerfeld

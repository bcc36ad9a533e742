import Verif.Lemmas.Symmetry
import Verif.Props.GalerkinField

/-!
# Symmetries of the channel in coefficient space

A motion of the channel acts on plane arrays by a real-linear map `σ` and on the coefficients between the walls by the sign `r ^ j` (`r = -1`: the
walls change places; all basis functions are even or odd).
-/

namespace SpectralDNS.Channel

open Polynomial Periodic

variable {κ X : Type*}

theorem sgR_pow_sq (r : ℤˣ) (j : ℕ) : sgR r ^ j * sgR r ^ j = 1 := by rw [← mul_pow, sgR_mul_self, one_pow]

theorem sgR_sq (r : ℤˣ) : sgR r ^ 2 = 1 := by rw [pow_two, sgR_mul_self]

theorem sgR_four (r : ℤˣ) : sgR r ^ 4 = 1 := by rw [show 4 = 2 * 2 by norm_num, pow_mul, sgR_sq, one_pow]

section lift

variable (σ : (κ → ℂ) →ₗ[ℝ] (κ → ℂ)) (r : ℤˣ)

/-- The action on arrays with coefficients between the walls. -/
noncomputable def lift {m : ℕ} : (κ → Fin m → ℂ) →ₗ[ℝ] (κ → Fin m → ℂ) where
  toFun a k j := ((sgR r ^ (j : ℕ) : ℝ) : ℂ) * σ (fun k => a k j) k
  map_add' a b := by
    funext k j
    change ((sgR r ^ (j : ℕ) : ℝ) : ℂ) * σ ((fun k => a k j) + fun k => b k j) k = _
    rw [map_add]
    exact mul_add _ _ _
  map_smul' t a := by
    funext k j
    change ((sgR r ^ (j : ℕ) : ℝ) : ℂ) * σ (t • fun k => a k j) k = t • (((sgR r ^ (j : ℕ) : ℝ) : ℂ) * σ (fun k => a k j) k)
    rw [map_smul, Pi.smul_apply, Complex.real_smul, Complex.real_smul]; ring

theorem lift_apply {m : ℕ} (a : κ → Fin m → ℂ) (k : κ) (j : Fin m) : lift σ r a k j = ((sgR r ^ (j : ℕ) : ℝ) : ℂ) * σ (fun k => a k j) k := rfl

/-- A wall-normal operation is compatible with the motions, `e` derivatives changing the sign. -/
def Par (e : ℕ) {a b : ℕ} (P : (Fin b → ℂ) →ₗ[ℂ] (Fin a → ℂ)) : Prop :=
  ∀ v : κ → Fin b → ℂ, (fun k => P (lift σ r v k)) = (sgR r ^ e) • lift σ r fun k => P (v k)

variable {σ r}

theorem Par.comp {e e' a b c : ℕ} {P : (Fin b → ℂ) →ₗ[ℂ] (Fin a → ℂ)} {P' : (Fin c → ℂ) →ₗ[ℂ] (Fin b → ℂ)} (h : Par σ r e P) (h' : Par σ r e' P') :
    Par σ r (e + e') (P ∘ₗ P') := fun v => by
  funext k
  have h1 := congrFun (h' v) k
  have h2 := congrFun (h fun k => P' (v k)) k
  simp only [LinearMap.comp_apply, Pi.smul_apply] at *
  rw [h1, show (sgR r ^ e' • lift σ r (fun k => P' (v k)) k) = ((sgR r ^ e' : ℝ) : ℂ) • lift σ r (fun k => P' (v k)) k from rfl, map_smul, h2, pow_add,
    mul_comm, mul_smul]
  rfl

/-- The sum in a real matrix times a vector, under `σ`. -/
theorem map_real_sum {ι : Type*} (s : Finset ι) (A : ι → ℝ) (v : ι → κ → ℂ) (k : κ) :
    σ (fun k => ∑ j ∈ s, (A j : ℂ) * v j k) k = ∑ j ∈ s, (A j : ℂ) * σ (v j) k := by
  have h : (fun k => ∑ j ∈ s, (A j : ℂ) * v j k) = ∑ j ∈ s, A j • v j := by
    funext k; simp [Finset.sum_apply, Complex.real_smul]
  rw [h, map_sum, Finset.sum_apply]
  exact Finset.sum_congr rfl fun j _ => by rw [map_smul, Pi.smul_apply, Complex.real_smul]

theorem matC_apply {a b : ℕ} (A : Matrix (Fin a) (Fin b) ℝ) (v : Fin b → ℂ) (i : Fin a) : matC A v i = ∑ j, (A i j : ℂ) * v j := by
  rw [matC, Matrix.toLin'_apply]; rfl

theorem par_matC {e a b : ℕ} (A : Matrix (Fin a) (Fin b) ℝ) (hA : ∀ i j, A i j * sgR r ^ (j : ℕ) = sgR r ^ e * (sgR r ^ (i : ℕ) * A i j)) :
    Par σ r e (matC A) := fun v => by
  funext k i
  simp only [Pi.smul_apply, lift_apply, Complex.real_smul, matC_apply]
  rw [map_real_sum Finset.univ (A i) (fun j k => v k j) k, Finset.mul_sum, Finset.mul_sum]
  refine Finset.sum_congr rfl fun j _ => ?_
  have : ((A i j : ℝ) : ℂ) * ((sgR r ^ (j : ℕ) : ℝ) : ℂ) = ((sgR r ^ e : ℝ) : ℂ) * (((sgR r ^ (i : ℕ) : ℝ) : ℂ) * ((A i j : ℝ) : ℂ)) := by
    exact_mod_cast hA i j
  rw [← mul_assoc, this]; ring

/-- The inverse of a bijection that is compatible. -/
theorem Par.inverse {e a b : ℕ} {P : (Fin b → ℂ) →ₗ[ℂ] (Fin a → ℂ)} {P' : (Fin a → ℂ) →ₗ[ℂ] (Fin b → ℂ)} (h : Par σ r e P) (h1 : ∀ v, P' (P v) = v)
    (h2 : ∀ v, P (P' v) = v) : Par σ r e P' := fun v => by
  funext k
  have h3 := congrFun (h fun k => P' (v k)) k
  simp only [h2, Pi.smul_apply] at h3
  have h4 : lift σ r v k = ((sgR r ^ e : ℝ) : ℂ) • P (lift σ r (fun k => P' (v k)) k) := by
    rw [h3, show (sgR r ^ e • lift σ r (fun k => v k) k) = ((sgR r ^ e : ℝ) : ℂ) • lift σ r (fun k => v k) k from rfl, smul_smul, ← Complex.ofReal_mul,
      sgR_pow_sq, Complex.ofReal_one, one_smul]
  show P' (lift σ r v k) = _
  rw [h4, map_smul, h1]
  rfl

end lift

/-! ## Parity of the basis functions and quadratures -/

/-- The functions are even and odd in turn; `e` shifts the parity. -/
def HasPar (r : ℤˣ) (e : ℕ) (f : ℕ → ℝ[X]) : Prop := ∀ j x, (f j).eval (sgR r * x) = sgR r ^ e * (sgR r ^ j * (f j).eval x)

theorem T_par (r : ℤˣ) (j : ℕ) (x : ℝ) : (Chebyshev.T ℝ (j : ℤ)).eval (sgR r * x) = sgR r ^ j * (Chebyshev.T ℝ (j : ℤ)).eval x := by
  rcases Int.units_eq_one_or r with rfl | rfl
  · simp [sgR]
  · simp only [sgR, Units.val_neg, Units.val_one, Int.cast_neg, Int.cast_one, neg_mul, one_mul]
    rw [Chebyshev.T_eval_neg]
    congr 1
    simp [Int.negOnePow_def]

theorem hasPar_T (r : ℤˣ) : HasPar r 0 fun j => Chebyshev.T ℝ (j : ℤ) := fun j x => by rw [T_par, pow_zero, one_mul]

theorem hasPar_phi (r : ℤˣ) : HasPar r 0 phi := fun j x => by
  simp only [phi, eval_sub, T_par, pow_add, sgR_sq]; ring

theorem hasPar_psi (r : ℤˣ) : HasPar r 0 psi := fun j x => by
  simp only [psi, eval_sub, eval_add, eval_smul, T_par, pow_add, sgR_sq, sgR_four, smul_eq_mul]; ring

theorem HasPar.derivative {r : ℤˣ} {e : ℕ} {f : ℕ → ℝ[X]} (h : HasPar r e f) : HasPar r (e + 1) fun j => derivative (f j) := fun j x => by
  have h1 : (f j).comp (C (sgR r) * X) = C (sgR r ^ e * sgR r ^ j) * f j := Polynomial.funext fun x => by
    simp only [eval_comp, eval_mul, eval_C, eval_X]
    rw [h j x]; ring
  have h2 := congrArg (fun p => (Polynomial.derivative p).eval x) h1
  simp only [derivative_comp, derivative_mul, derivative_C, derivative_X, zero_mul, zero_add, mul_one, eval_mul, eval_comp, eval_C, eval_X] at h2
  have h3 := sgR_mul_self r
  rw [pow_succ]
  linear_combination (sgR r) * h2 - (Polynomial.derivative (f j)).eval (sgR r * x) * h3

theorem HasPar.iterate {r : ℤˣ} {f : ℕ → ℝ[X]} (h : HasPar r 0 f) (d : ℕ) : HasPar r d fun j => Polynomial.derivative^[d] (f j) := by
  induction d with
  | zero => exact h
  | succ d ih => simpa only [Function.iterate_succ', Function.comp] using ih.derivative

/-- The quadrature point opposite to a point. -/
def oppose (r : ℤˣ) {N : ℕ} (j : Fin N) : Fin N := if r = 1 then j else j.rev

theorem oppose_involutive (r : ℤˣ) (N : ℕ) : Function.Involutive (oppose r : Fin N → Fin N) := fun j => by
  by_cases h : r = 1 <;> simp [oppose, h]

theorem quadPoint_oppose (r : ℤˣ) (q : Quad) (n : ℕ) (j : Fin (n + 4)) : quadPoint q (n + 4) (oppose r j : Fin (n + 4)) = sgR r * quadPoint q (n + 4) j := by
  rcases Int.units_eq_one_or r with rfl | rfl
  · simp [oppose, sgR]
  · have h1 : ((-1 : ℤˣ) = 1) = False := by simp
    have h2 : (((j.rev : Fin (n + 4)) : ℕ) : ℝ) = (n : ℝ) + 3 - j := by
      rw [Fin.val_rev]
      have := j.2
      rw [Nat.cast_sub (by omega)]; push_cast; ring
    have h3 : sgR (-1) = -1 := by simp [sgR]
    simp only [oppose, h1, if_false, h3, neg_one_mul]
    cases q
    · simp only [quadPoint, h2]
      rw [← Real.cos_pi_sub]
      congr 1
      push_cast
      have : (n : ℝ) + 4 ≠ 0 := by positivity
      field_simp; ring
    · simp only [quadPoint, h2]
      rw [← Real.cos_pi_sub]
      congr 1
      push_cast
      have : (n : ℝ) + 4 - 1 ≠ 0 := by have : (0 : ℝ) ≤ n := Nat.cast_nonneg n; linarith
      field_simp; ring

theorem quadWeight_oppose (r : ℤˣ) (q : Quad) (n : ℕ) (j : Fin (n + 4)) : quadWeight q (n + 4) (oppose r j : Fin (n + 4)) = quadWeight q (n + 4) j := by
  by_cases h : r = 1
  · simp [oppose, h]
  · cases q
    · rfl
    · simp only [oppose, h, if_false, quadWeight, Fin.val_rev]
      have := j.2
      have : (n + 4 - (↑j + 1) = 0 ∨ n + 4 - (↑j + 1) = n + 4 - 1) ↔ ((j : ℕ) = 0 ∨ (j : ℕ) = n + 4 - 1) := by omega
      simp only [this]

/-- A sum over the quadrature points. -/
theorem sum_oppose (r : ℤˣ) (n : ℕ) (F : Fin (n + 4) → ℂ) : ∑ j, F (oppose r j) = ∑ j, F j := Equiv.sum_comp ((oppose_involutive r _).toPerm) F

theorem quadrature_sum (q : Quad) (n : ℕ) (p : ℝ[X]) : quadrature q (n + 4) p = ∑ j : Fin (n + 4), quadWeight q (n + 4) j * p.eval (quadPoint q (n + 4) j) := by
  rw [quadrature, LinearMap.sum_apply, Finset.sum_range]
  simp

theorem entry_par (r : ℤˣ) (q : Quad) (n a b d : ℕ) {test trial : ℕ → ℝ[X]} (h : HasPar r 0 test) (h' : HasPar r 0 trial) (i : Fin a) (j : Fin b) :
    entry q (n + 4) test trial d a b i j * sgR r ^ (j : ℕ) = sgR r ^ d * (sgR r ^ (i : ℕ) * entry q (n + 4) test trial d a b i j) := by
  have key : entry q (n + 4) test trial d a b i j = sgR r ^ d * sgR r ^ (i : ℕ) * sgR r ^ (j : ℕ) * entry q (n + 4) test trial d a b i j := by
    simp only [entry, quadrature_sum]
    conv_lhs => rw [← Equiv.sum_comp ((oppose_involutive r (n + 4)).toPerm)]
    rw [Finset.mul_sum]
    refine Finset.sum_congr rfl fun l _ => ?_
    show quadWeight q (n + 4) (oppose r l : Fin (n + 4)) * eval (quadPoint q (n + 4) (oppose r l : Fin (n + 4))) _ = _
    rw [quadWeight_oppose, quadPoint_oppose, eval_mul, eval_mul, (h'.iterate d) j, h i]
    ring
  rw [key]
  linear_combination (sgR r ^ d * sgR r ^ (i : ℕ) * entry q (n + 4) test trial d a b i j) * (sgR_pow_sq r j) -
    (sgR r ^ d * sgR r ^ (i : ℕ) * entry q (n + 4) test trial d a b i j) * 0 - sgR r ^ d * sgR r ^ (i : ℕ) * entry q (n + 4) test trial d a b i j +
    sgR r ^ d * sgR r ^ (i : ℕ) * key

section wall

variable {σ : (κ → ℂ) →ₗ[ℝ] (κ → ℂ)} {r : ℤˣ}

theorem par_entry (q : Quad) (n a b d : ℕ) {test trial : ℕ → ℝ[X]} (h : HasPar r 0 test) (h' : HasPar r 0 trial) :
    Par σ r d (matC (entry q (n + 4) test trial d a b)) := par_matC _ (entry_par r q n a b d h h')

theorem par_massInv (q : Quad) (n a s : ℕ) {f : ℕ → ℝ[X]} (h : HasPar r 0 f) (hN : a + s ≤ n + 4) (hf : ∀ j, (f j).degree = (j + s : ℕ)) :
    Par σ r 0 (matC (entry q (n + 4) f f 0 a a)⁻¹) := by
  have h1 : ∀ v, matC (entry q (n + 4) f f 0 a a)⁻¹ (matC (entry q (n + 4) f f 0 a a) v) = v := fun v => by
    have := entry_test (a := a) q (n + 4) a 0 f f v
    rw [Function.iterate_zero, id] at this
    rw [this]
    exact mass_inv q (n + 4) a f s hN (by omega) hf v
  have h2 := (matC_bijective (entry q (n + 4) f f 0 a a) fun x hx => (mass_pos q (n + 4) a f s hN (by omega) hf x hx).ne').2
  refine (par_entry q n a a 0 h h).inverse h1 fun v => ?_
  obtain ⟨u, rfl⟩ := h2 v
  rw [h1]

/-- `project` of a derivative. -/
theorem par_project (q : Quad) (n a b s : ℕ) {f g : ℕ → ℝ[X]} (h : HasPar r 0 f) (h' : HasPar r 0 g) (hN : a + s ≤ n + 4)
    (hf : ∀ j, (f j).degree = (j + s : ℕ)) (P : (Fin b → ℂ) →ₗ[ℂ] (Fin a → ℂ))
    (hP : ∀ v, P v = projectOnto q (n + 4) f (Polynomial.derivative (expandC g v))) : Par σ r 1 P := by
  have : P = matC (entry q (n + 4) f f 0 a a)⁻¹ ∘ₗ matC (entry q (n + 4) f g 1 a b) := LinearMap.ext fun v => by
    rw [hP, LinearMap.comp_apply, entry_test (a := a) q (n + 4) b 1 f g v]
    rfl
  rw [this]
  exact (par_massInv q n a s h hN hf).comp (par_entry q n a b 1 h h')

/-- Values at the quadrature points. -/
theorem eval_lift (q : Quad) (n a e : ℕ) {f : ℕ → ℝ[X]} (h : HasPar r e f) (v : κ → Fin a → ℂ) (l : Fin (n + 4)) :
    (fun k => (expandC f (lift σ r v k)).eval (quadPoint q (n + 4) l : ℂ)) =
      (sgR r ^ e) • σ fun k => (expandC f (v k)).eval (quadPoint q (n + 4) (oppose r l : Fin (n + 4)) : ℂ) := by
  have he : ∀ (v : Fin a → ℂ) (x : ℝ), (expandC f v).eval (x : ℂ) = ∑ j : Fin a, (((f j).eval x : ℝ) : ℂ) * v j := fun v x => by
    rw [expandC_apply, eval_finsetSum]
    refine Finset.sum_congr rfl fun j _ => ?_
    have : ((f j).map Complex.ofRealHom).eval (x : ℂ) = (((f j).eval x : ℝ) : ℂ) := by
      rw [eval_map]; exact eval₂_at_apply Complex.ofRealHom x
    rw [eval_smul, this, smul_eq_mul, mul_comm]
  funext k
  simp only [he, Pi.smul_apply, Complex.real_smul]
  rw [map_real_sum Finset.univ (fun j : Fin a => (f j).eval (quadPoint q (n + 4) (oppose r l : Fin (n + 4)))) (fun j k => v k j) k, Finset.mul_sum]
  refine Finset.sum_congr rfl fun j _ => ?_
  rw [quadPoint_oppose, h j, lift_apply]
  have h1 := sgR_pow_sq r e
  have h2 : ((sgR r ^ e : ℝ) : ℂ) * ((sgR r ^ e : ℝ) : ℂ) = 1 := by exact_mod_cast h1
  push_cast at h2 ⊢
  linear_combination -((eval (quadPoint q (n + 4) l) (f j) : ℝ) : ℂ) * (sgR r : ℂ) ^ (j : ℕ) * σ (fun k => v k j) k * h2

/-- The forward transform between the walls. -/
theorem forwardWall_lift (q : Quad) (n a s : ℕ) {f : ℕ → ℝ[X]} (h : HasPar r 0 f) (hN : a + s ≤ n + 4) (hf : ∀ j, (f j).degree = (j + s : ℕ))
    (F : Fin (n + 4) → κ → ℂ) :
    (fun k => (forwardWall q (n + 4) f (a := a)) fun l => σ (F (oppose r l)) k) = lift σ r fun k => (forwardWall q (n + 4) f) fun l => F l k := by
  have h1 : ∀ (G : Fin (n + 4) → ℂ), (forwardWall q (n + 4) f (a := a)) G = matC (entry q (n + 4) f f 0 a a)⁻¹ fun i =>
      ∑ j : Fin (n + 4), ((quadWeight q (n + 4) j * (f i).eval (quadPoint q (n + 4) j) : ℝ) : ℂ) * G j := fun G => by
    rw [forwardWall, LinearMap.comp_apply]
    congr 1
    funext i
    simp [LinearMap.sum_apply]
  have h2 : (fun k => fun i : Fin a => ∑ j : Fin (n + 4), ((quadWeight q (n + 4) j * (f i).eval (quadPoint q (n + 4) j) : ℝ) : ℂ) * σ (F (oppose r j)) k) =
      lift σ r fun k i => ∑ j : Fin (n + 4), ((quadWeight q (n + 4) j * (f i).eval (quadPoint q (n + 4) j) : ℝ) : ℂ) * F j k := by
    funext k i
    rw [lift_apply, map_real_sum, Finset.mul_sum, ← sum_oppose r n]
    refine Finset.sum_congr rfl fun j _ => ?_
    rw [quadWeight_oppose, quadPoint_oppose, h i, oppose_involutive r _ j]
    push_cast; ring
  have h3 := par_massInv (σ := σ) q n a s h hN hf fun k i => ∑ j : Fin (n + 4), ((quadWeight q (n + 4) j * (f i).eval (quadPoint q (n + 4) j) : ℝ) : ℂ) * F j k
  rw [← h2, pow_zero, one_smul] at h3
  simp only [h1]
  exact h3

end wall

end SpectralDNS.Channel

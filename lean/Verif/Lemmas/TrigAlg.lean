import Verif.Lemmas.Trig
import Verif.Model.Demos

/-! Trigonometric polynomials with few modes in boxes of sides `2 pi p`: values, derivatives and energy. -/

namespace SpectralDNS.Periodic

open Complex

variable {d n : ℕ} {J : Type*} [Fintype J]

/-- Integer modes of `exp(i e.x)` in a box with sides `2 pi p`. -/
def modes (p : Fin d → ℕ) (e : J → Fin d → ℤ) (j : J) (i : Fin d) : ℤ := (p i : ℤ) * e j i

/-- Sides `2 pi p`. -/
noncomputable def box (p : Fin d → ℕ) (i : Fin d) : ℝ := 2 * Real.pi * p i

/-- `exp(i X[i])` at a grid point. -/
noncomputable def ph (p : Fin d → ℕ) (M : Fin d → ℕ) (i : Fin d) (x : Grid M) : ℂ := Complex.exp (Demos.mesh M (box p) i x * I)

theorem ph_ne_zero (p : Fin d → ℕ) (M : Fin d → ℕ) (i : Fin d) (x : Grid M) : ph p M i x ≠ 0 := Complex.exp_ne_zero _

omit [Fintype J] in
theorem expz_modes (p : Fin d → ℕ) (M : Fin d → ℕ) (e : J → Fin d → ℤ) (j : J) (x : Grid M) :
    expz M (modes p e j) x = ∏ i, ph p M i x ^ e j i := by
  rw [expz, Finset.mul_sum, Complex.exp_sum]
  refine Finset.prod_congr rfl fun i _ => ?_
  rw [ph, ← Complex.exp_int_mul]
  congr 1
  simp only [modes, Demos.mesh, box]
  push_cast
  ring

theorem sin_ph (p : Fin d → ℕ) (M : Fin d → ℕ) (i : Fin d) (x : Grid M) :
    ((Real.sin (Demos.mesh M (box p) i x) : ℝ) : ℂ) = ((ph p M i x)⁻¹ - ph p M i x) * I / 2 := by
  rw [Complex.ofReal_sin, Complex.sin, ph, ← Complex.exp_neg, neg_mul]

theorem cos_ph (p : Fin d → ℕ) (M : Fin d → ℕ) (i : Fin d) (x : Grid M) :
    ((Real.cos (Demos.mesh M (box p) i x) : ℝ) : ℂ) = (ph p M i x + (ph p M i x)⁻¹) / 2 := by
  rw [Complex.ofReal_cos, Complex.cos, ph, ← Complex.exp_neg, neg_mul]

theorem coeffs_add (N : Fin (n + 1) → ℕ) (m : J → Fin (n + 1) → ℤ) (a b : J → ℂ) (k : RModes N) :
    coeffs N m a k + coeffs N m b k = coeffs N m (fun j => a j + b j) k := by
  simp only [coeffs, ← Finset.sum_add_distrib]
  exact Finset.sum_congr rfl fun j _ => by split <;> simp

theorem coeffs_mul (N : Fin (n + 1) → ℕ) (m : J → Fin (n + 1) → ℤ) (z : ℂ) (b : J → ℂ) (k : RModes N) :
    z * coeffs N m b k = coeffs N m (fun j => z * b j) k := by
  simp only [coeffs, Finset.mul_sum]
  exact Finset.sum_congr rfl fun j _ => by split <;> simp

theorem coeffs_neg (N : Fin (n + 1) → ℕ) (m : J → Fin (n + 1) → ℤ) (b : J → ℂ) (k : RModes N) :
    -coeffs N m b k = coeffs N m (fun j => -b j) k := by
  rw [← neg_one_mul, coeffs_mul]; simp

theorem coeffs_zero (N : Fin (n + 1) → ℕ) (m : J → Fin (n + 1) → ℤ) (c : J → ℂ) (hc : ∀ j, c j = 0) (k : RModes N) :
    coeffs N m c k = 0 := by
  simp [coeffs, hc]

/-- Multiplying with a scaled wavenumber. -/
theorem wave_coeffs (N : Fin (n + 1) → ℕ) (p : Fin (n + 1) → ℕ) (hp : ∀ i, 0 < p i) (e : J → Fin (n + 1) → ℤ) (c : J → ℂ)
    (i : Fin (n + 1)) (k : RModes N) :
    (scaledWaves N (box p) i k : ℂ) * coeffs N (modes p e) c k = coeffs N (modes p e) (fun j => (e j i : ℂ) * c j) k := by
  simp only [coeffs, Finset.mul_sum]
  refine Finset.sum_congr rfl fun j _ => ?_
  split
  · rename_i h
    have hw : waves N i k = (p i : ℤ) * e j i := (congrFun h i).symm
    have h1 : (p i : ℂ) ≠ 0 := by exact_mod_cast (hp i).ne'
    have h2 : (Real.pi : ℂ) ≠ 0 := by exact_mod_cast Real.pi_ne_zero
    simp only [scaledWaves, hw, box]
    push_cast
    field_simp
  · simp

/-- Mode zero of the array has no coefficient if no mode of the polynomial is zero. -/
theorem coeffs_mean (N : Fin (n + 1) → ℕ) (p : Fin (n + 1) → ℕ) (hp : ∀ i, 0 < p i) (e : J → Fin (n + 1) → ℤ) (c : J → ℂ)
    (he : ∀ j, ∃ i, e j i ≠ 0) (k : RModes N) (hk : ∀ i, scaledWaves N (box p) i k = 0) : coeffs N (modes p e) c k = 0 := by
  refine Finset.sum_eq_zero fun j _ => if_neg fun h => ?_
  obtain ⟨i, hi⟩ := he j
  have hw : waves N i k = (p i : ℤ) * e j i := (congrFun h i).symm
  have h1 := hk i
  have h2 : (p i : ℝ) ≠ 0 := by exact_mod_cast (hp i).ne'
  simp only [scaledWaves, hw, box] at h1
  push_cast at h1
  have h3 : (e j i : ℝ) ≠ 0 := by exact_mod_cast hi
  have h4 := Real.pi_ne_zero
  rcases mul_eq_zero.1 h1 with h | h
  · rcases div_eq_zero_iff.1 h with h | h <;> simp_all
  · simp_all

/-- Mean square of a real trigonometric polynomial with distinct modes that fit the grid. -/
theorem trig_energy (M : Fin d → ℕ) (hM : ∀ i, 0 < M i) (m : J → Fin d → ℤ) (hinj : Function.Injective m)
    (hm : ∀ j i, 2 * |m j i| < M i) (c : J → ℂ) (f : Grid M → ℝ) (hf : ∀ x, (f x : ℂ) = trig M m c x) :
    ∑ x, f x * f x = (∏ i, (M i : ℝ)) * ∑ j, normSq (c j) := by
  have hcard : (Fintype.card (Grid M) : ℂ) = ((∏ i, (M i : ℝ) : ℝ) : ℂ) := by simp [Fintype.card_pi]
  have h : ((∑ x, f x * f x : ℝ) : ℂ) = (((∏ i, (M i : ℝ)) * ∑ j, normSq (c j) : ℝ) : ℂ) := by
    calc ((∑ x, f x * f x : ℝ) : ℂ) = ∑ x, trig M m c x * (starRingEnd ℂ) (trig M m c x) := by
          push_cast
          refine Finset.sum_congr rfl fun x _ => ?_
          rw [← hf, Complex.conj_ofReal]
      _ = ∑ x, ∑ j, ∑ l, c j * (starRingEnd ℂ) (c l) *
            (kernel (fun i j => m j i) M j x * (starRingEnd ℂ) (kernel (fun i j => m j i) M l x)) := by
          refine Finset.sum_congr rfl fun x _ => ?_
          simp only [trig, map_sum, map_mul]
          rw [Finset.sum_mul_sum]
          refine Finset.sum_congr rfl fun j _ => Finset.sum_congr rfl fun l _ => ?_
          simp only [expz, kernel]; ring
      _ = ∑ j, ∑ l, c j * (starRingEnd ℂ) (c l) *
            (if ∀ i, (M i : ℤ) ∣ m j i - m l i then (Fintype.card (Grid M) : ℂ) else 0) := by
          rw [Finset.sum_comm]
          refine Finset.sum_congr rfl fun j _ => ?_
          rw [Finset.sum_comm]
          refine Finset.sum_congr rfl fun l _ => ?_
          rw [← Finset.mul_sum, kernel_orth (fun i j => m j i) M hM l j]
      _ = ∑ j, c j * (starRingEnd ℂ) (c j) * (Fintype.card (Grid M) : ℂ) := by
          refine Finset.sum_congr rfl fun j _ => ?_
          rw [Finset.sum_eq_single j]
          · simp
          · intro l _ hl
            rw [if_neg, mul_zero]
            intro h
            refine hl (hinj (funext fun i => ?_))
            have h1 := hm j i
            have h2 := hm l i
            have h3 : |m j i - m l i| < M i := (abs_sub _ _).trans_lt (by omega)
            have := Int.eq_zero_of_abs_lt_dvd (h i) h3
            omega
          · simp
      _ = _ := by
          rw [hcard, ← Finset.sum_mul]
          push_cast
          rw [mul_comm]
          refine congrArg _ (Finset.sum_congr rfl fun j _ => ?_)
          rw [Complex.mul_conj]
  exact_mod_cast h

/-- The sign of a Boolean. -/
def sg (b : Bool) : ℤ := if b then 1 else -1

theorem sg_not (b : Bool) : sg (!b) = -sg b := by cases b <;> rfl

theorem sg_inj : Function.Injective sg := by intro a b; cases a <;> cases b <;> simp [sg]

theorem abs_sg (b : Bool) : |sg b| = 1 := by cases b <;> rfl

/-- The four diagonal modes in two dimensions. -/
def e2 (j : Bool × Bool) : Fin 2 → ℤ := ![sg j.1, sg j.2]

/-- The eight diagonal modes in three dimensions. -/
def e3 (j : Bool × Bool × Bool) : Fin 3 → ℤ := ![sg j.1, sg j.2.1, sg j.2.2]

theorem e2_inj (p : Fin 2 → ℕ) (hp : ∀ i, 0 < p i) : Function.Injective (modes p e2) := by
  intro j l h
  have h0 := congrFun h 0
  have h1 := congrFun h 1
  have hz : ∀ i, (p i : ℤ) ≠ 0 := fun i => by exact_mod_cast (hp i).ne'
  simp only [modes] at h0 h1
  exact Prod.ext (sg_inj (mul_left_cancel₀ (hz 0) h0)) (sg_inj (mul_left_cancel₀ (hz 1) h1))

theorem e3_inj (p : Fin 3 → ℕ) (hp : ∀ i, 0 < p i) : Function.Injective (modes p e3) := by
  intro j l h
  have h0 := congrFun h 0
  have h1 := congrFun h 1
  have h2 := congrFun h 2
  have hz : ∀ i, (p i : ℤ) ≠ 0 := fun i => by exact_mod_cast (hp i).ne'
  simp only [modes] at h0 h1 h2
  exact Prod.ext (sg_inj (mul_left_cancel₀ (hz 0) h0))
    (Prod.ext (sg_inj (mul_left_cancel₀ (hz 1) h1)) (sg_inj (mul_left_cancel₀ (hz 2) h2)))

theorem e2_band (p N : Fin 2 → ℕ) (h : ∀ i, 2 * p i < N i) (j i) : 2 * |modes p e2 j i| < N i := by
  have := h i
  have h1 : |e2 j i| = 1 := by fin_cases i <;> simp [e2, abs_sg]
  rw [modes, abs_mul, h1, mul_one, Nat.abs_cast]; exact_mod_cast this

theorem e3_band (p N : Fin 3 → ℕ) (h : ∀ i, 2 * p i < N i) (j i) : 2 * |modes p e3 j i| < N i := by
  have := h i
  have h1 : |e3 j i| = 1 := by fin_cases i <;> simp [e3, abs_sg]
  rw [modes, abs_mul, h1, mul_one, Nat.abs_cast]; exact_mod_cast this

/-- Opposite modes. -/
def o2 (j : Bool × Bool) : Bool × Bool := (!j.1, !j.2)
/-- Opposite modes. -/
def o3 (j : Bool × Bool × Bool) : Bool × Bool × Bool := (!j.1, !j.2.1, !j.2.2)

theorem o2_inv : Function.Involutive o2 := fun j => by simp [o2]
theorem o3_inv : Function.Involutive o3 := fun j => by simp [o3]

theorem modes_o2 (p : Fin 2 → ℕ) (j) : modes p e2 (o2 j) = -modes p e2 j := by
  funext i; fin_cases i <;> simp [modes, e2, o2, sg_not]

theorem modes_o3 (p : Fin 3 → ℕ) (j) : modes p e3 (o3 j) = -modes p e3 j := by
  funext i; fin_cases i <;> simp [modes, e3, o3, sg_not]

end SpectralDNS.Periodic

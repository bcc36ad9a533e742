import Verif.Lemmas.Projection

/-!
# The energy estimate for the difference of a classical solution and a Galerkin solution
-/

namespace SpectralDNS.Torus

open Complex Spec Periodic Dealias MeasureTheory
open scoped ContDiff

theorem abs_mul_le_of {a b A : ℝ} (h : |a| ≤ A) : a * b ≤ A * |b| := by
  have h1 := abs_mul a b
  have h2 := le_abs_self (a * b)
  have h3 := mul_le_mul_of_nonneg_right h (abs_nonneg b)
  linarith

/-- One pair of indices of the convective terms. -/
theorem conv_term_le {A u g h ei ej r : ℝ} (hA : 0 ≤ A) (hu : |u| ≤ A) (hg : |g| ≤ A) (hh : |h| ≤ A) :
    ei * (-(r + ej) * g - (u - r - ej) * h) ≤ A * (7 / 2 / 2 * ei ^ 2 + 7 / 2 / 2 * ej ^ 2 + r ^ 2 + h ^ 2 / 2) + A * (3 / 4 * ei ^ 2 - 3 / 4 * ej ^ 2) := by
  have h1 : -(g * (ei * r)) ≤ A * |ei * r| := by
    have := abs_mul_le_of (a := -g) (b := ei * r) (A := A) (by rwa [abs_neg]); linarith
  have h2 : -(g * (ei * ej)) ≤ A * |ei * ej| := by
    have := abs_mul_le_of (a := -g) (b := ei * ej) (A := A) (by rwa [abs_neg]); linarith
  have h3 : -(u * (ei * h)) ≤ A * |ei * h| := by
    have := abs_mul_le_of (a := -u) (b := ei * h) (A := A) (by rwa [abs_neg]); linarith
  have h4 : h * (ei * r) ≤ A * |ei * r| := abs_mul_le_of hh
  have h5 : h * (ei * ej) ≤ A * |ei * ej| := abs_mul_le_of hh
  have q : ∀ a b : ℝ, |a * b| ≤ (a ^ 2 + b ^ 2) / 2 := fun a b => by
    rw [abs_le]; constructor <;> nlinarith [sq_nonneg (a + b), sq_nonneg (a - b)]
  have q1 := mul_le_mul_of_nonneg_left (q ei r) hA
  have q2 := mul_le_mul_of_nonneg_left (q ei ej) hA
  have q3 := mul_le_mul_of_nonneg_left (q ei h) hA
  nlinarith

section
variable {d : ℕ} {L : Fin d → ℝ} {u f e v r s dp : Fin d → (Fin d → ℝ) → ℝ} {g l de dv gw : Fin d → Fin d → (Fin d → ℝ) → ℝ}
  {p P : (Fin d → ℝ) → ℝ} {nu A : ℝ}

theorem energy_core_diss (hL : ∀ i, 0 < L i) (hA : 0 ≤ A)
    (cu : ∀ i, Continuous (u i)) (cf : ∀ i, Continuous (f i)) (ce : ∀ i, Continuous (e i)) (cv : ∀ i, Continuous (v i)) (cr : ∀ i, Continuous (r i))
    (cs : ∀ i, Continuous (s i)) (cdp : ∀ i, Continuous (dp i)) (cg : ∀ i j, Continuous (g i j)) (cl : ∀ i j, Continuous (l i j))
    (cde : ∀ i j, Continuous (de i j)) (cdv : ∀ i j, Continuous (dv i j)) (cgw : ∀ i j, Continuous (gw i j)) (cp : Continuous p) (cP : Continuous P)
    (hr : ∀ i x, u i x = r i x + e i x + v i x) (hde : ∀ i j x, de i j x = gw i j x - dv i j x)
    (dive : ∀ x, ∑ i, de i i x = 0) (divv : ∀ x, ∑ i, dv i i x = 0)
    (z1 : boxMean L (fun x => ∑ i, (dp i x * e i x + p x * de i i x)) = 0)
    (z2 : boxMean L (fun x => ∑ i, ∑ j, (l i j x * e i x + g i j x * de i j x)) = 0)
    (z3 : boxMean L (fun x => ∑ i, ∑ j, (g i j x - gw i j x) * de i j x) = 0)
    (z4 : boxMean L (fun x => ∑ i, ∑ j, (2 * e i x * de i j x * v j x + e i x ^ 2 * dv j j x)) = 0)
    (bu : ∀ i, ∀ x ∈ Set.Icc 0 L, |u i x| ≤ A) (bg : ∀ i j, ∀ x ∈ Set.Icc 0 L, |g i j x| ≤ A)
    (bh : ∀ i j, ∀ x ∈ Set.Icc 0 L, |g i j x - gw i j x| ≤ A) :
    boxMean L (fun x => ∑ i, (-(∑ j, u j x * g i j x) - dp i x + nu * ∑ j, l i j x + f i x) * e i x) -
      boxMean L (fun x => ∑ i, ((-(∑ j, v j x * dv i j x) + s i x) * e i x + P x * de i i x - nu * ∑ j, dv i j x * de i j x)) ≤
    (4 * d * A + 1 / 2) * boxMean L (fun x => ∑ i, e i x ^ 2) + A * (d * boxMean L (fun x => ∑ i, r i x ^ 2) +
      boxMean L (fun x => ∑ i, ∑ j, (g i j x - gw i j x) ^ 2)) + 1 / 2 * boxMean L (fun x => ∑ i, (f i x - s i x) ^ 2) -
      nu * boxMean L (fun x => ∑ i, ∑ j, de i j x ^ 2) := by
  let Q1 := fun x => ∑ i, (-(∑ j, u j x * g i j x) - dp i x + nu * ∑ j, l i j x + f i x) * e i x
  let Q2 := fun x => ∑ i, ((-(∑ j, v j x * dv i j x) + s i x) * e i x + P x * de i i x - nu * ∑ j, dv i j x * de i j x)
  let Z1 := fun x => ∑ i, (dp i x * e i x + p x * de i i x)
  let Z2 := fun x => ∑ i, ∑ j, (l i j x * e i x + g i j x * de i j x)
  let Z3 := fun x => ∑ i, ∑ j, (g i j x - gw i j x) * de i j x
  let Z4 := fun x => ∑ i, ∑ j, (2 * e i x * de i j x * v j x + e i x ^ 2 * dv j j x)
  let R1 := fun x => ∑ i, e i x ^ 2
  let R2 := fun x => ∑ i, r i x ^ 2
  let R3 := fun x => ∑ i, ∑ j, (g i j x - gw i j x) ^ 2
  let R4 := fun x => ∑ i, (f i x - s i x) ^ 2
  let R5 := fun x => ∑ i, ∑ j, de i j x ^ 2
  have c1 : Continuous Q1 := by unfold Q1; fun_prop
  have c2 : Continuous Q2 := by unfold Q2; fun_prop
  have d1 : Continuous Z1 := by unfold Z1; fun_prop
  have d2 : Continuous Z2 := by unfold Z2; fun_prop
  have d3 : Continuous Z3 := by unfold Z3; fun_prop
  have d4 : Continuous Z4 := by unfold Z4; fun_prop
  have e1 : Continuous R1 := by unfold R1; fun_prop
  have e2 : Continuous R2 := by unfold R2; fun_prop
  have e3 : Continuous R3 := by unfold R3; fun_prop
  have e4 : Continuous R4 := by unfold R4; fun_prop
  have e5 : Continuous R5 := by unfold R5; fun_prop
  have hpt : ∀ x ∈ Set.Icc 0 L, (Q1 x - Q2 x) + ((Z1 x + -nu * Z2 x) + (nu * Z3 x + 1 / 2 * Z4 x)) ≤
      (4 * d * A + 1 / 2) * R1 x + (A * (d * R2 x + R3 x) + (1 / 2 * R4 x + -nu * R5 x)) := fun x hx => by
    have key : (Q1 x - Q2 x) + ((Z1 x + -nu * Z2 x) + (nu * Z3 x + 1 / 2 * Z4 x)) =
        -nu * (∑ i, ∑ j, de i j x ^ 2) + ∑ i, ∑ j, e i x * (-(r j x + e j x) * g i j x - (u j x - r j x - e j x) * (g i j x - gw i j x)) +
          ∑ i, (f i x - s i x) * e i x + (p x - P x) * ∑ i, de i i x + 1 / 2 * ∑ i, e i x ^ 2 * ∑ j, dv j j x := by
      simp only [Q1, Q2, Z1, Z2, Z3, Z4, Finset.mul_sum (s := Finset.univ) (a := -nu), Finset.mul_sum (s := Finset.univ) (a := nu),
        Finset.mul_sum (s := Finset.univ) (a := (1 / 2 : ℝ)), Finset.mul_sum (s := Finset.univ) (a := p x - P x),
        ← Finset.sum_add_distrib, ← Finset.sum_sub_distrib]
      refine Finset.sum_congr rfl fun i _ => ?_
      have inner : ∀ j, (-(u j x * g i j x) + nu * l i j x) * e i x + v j x * dv i j x * e i x + nu * (dv i j x * de i j x) +
          -nu * (l i j x * e i x + g i j x * de i j x) + nu * ((g i j x - gw i j x) * de i j x) +
          1 / 2 * (2 * e i x * de i j x * v j x + e i x ^ 2 * dv j j x) =
          -nu * de i j x ^ 2 + e i x * (-(r j x + e j x) * g i j x - (u j x - r j x - e j x) * (g i j x - gw i j x)) + 1 / 2 * (e i x ^ 2 * dv j j x) := fun j => by
        have h1 := hr j x
        have h2 := hde i j x
        have h3 : v j x = u j x - r j x - e j x := by linarith
        have h4 : gw i j x = de i j x + dv i j x := by linarith
        rw [h3, h4]
        ring
      have hs := Finset.sum_congr (rfl : (Finset.univ : Finset (Fin d)) = Finset.univ) fun j _ => inner j
      simp only [Finset.sum_add_distrib, ← Finset.sum_mul, Finset.sum_neg_distrib, ← Finset.mul_sum] at hs ⊢
      linarith
    rw [key, dive x, divv x]
    have hn : R5 x = ∑ i, ∑ j, de i j x ^ 2 := rfl
    rw [hn]
    have hc : ∑ i, ∑ j, e i x * (-(r j x + e j x) * g i j x - (u j x - r j x - e j x) * (g i j x - gw i j x)) ≤
        ∑ i, ∑ j, (A * (7 / 2 / 2 * e i x ^ 2 + 7 / 2 / 2 * e j x ^ 2 + r j x ^ 2 + (g i j x - gw i j x) ^ 2 / 2) +
          A * (3 / 4 * e i x ^ 2 - 3 / 4 * e j x ^ 2)) :=
      Finset.sum_le_sum fun i _ => Finset.sum_le_sum fun j _ => conv_term_le hA (bu j x hx) (bg i j x hx) (bh i j x hx)
    have hc2 : ∑ i, ∑ j, (A * (7 / 2 / 2 * e i x ^ 2 + 7 / 2 / 2 * e j x ^ 2 + r j x ^ 2 + (g i j x - gw i j x) ^ 2 / 2) +
          A * (3 / 4 * e i x ^ 2 - 3 / 4 * e j x ^ 2)) = A * (7 / 2 * d * R1 x + d * R2 x + R3 x / 2) := by
      simp only [mul_add, mul_sub, Finset.sum_add_distrib, Finset.sum_sub_distrib, ← Finset.mul_sum, Finset.sum_const, Finset.card_univ, Fintype.card_fin,
        nsmul_eq_mul, ← Finset.sum_div, R1, R2, R3]
      ring
    have hf : ∑ i, (f i x - s i x) * e i x ≤ 1 / 2 * R4 x + 1 / 2 * R1 x := by
      simp only [R4, R1, Finset.mul_sum, ← Finset.sum_add_distrib]
      exact Finset.sum_le_sum fun i _ => by nlinarith [sq_nonneg (f i x - s i x - e i x)]
    have p1 : 0 ≤ A * d * R1 x := mul_nonneg (by positivity) (Finset.sum_nonneg fun i _ => sq_nonneg _)
    have p3 : 0 ≤ A * R3 x := mul_nonneg hA (Finset.sum_nonneg fun i _ => Finset.sum_nonneg fun j _ => sq_nonneg _)
    have : 1 / 2 * ∑ i, e i x ^ 2 * 0 = 0 := by simp
    rw [this]
    linarith
  change boxMean L Z1 = 0 at z1
  change boxMean L Z2 = 0 at z2
  change boxMean L Z3 = 0 at z3
  change boxMean L Z4 = 0 at z4
  change boxMean L Q1 - boxMean L Q2 ≤ (4 * d * A + 1 / 2) * boxMean L R1 + A * (d * boxMean L R2 + boxMean L R3) + 1 / 2 * boxMean L R4 - nu * boxMean L R5
  clear_value Q1 Q2 Z1 Z2 Z3 Z4 R1 R2 R3 R4 R5
  have hm : boxMean L (fun x => (Q1 x - Q2 x) + ((Z1 x + -nu * Z2 x) + (nu * Z3 x + 1 / 2 * Z4 x))) ≤
      boxMean L (fun x => (4 * d * A + 1 / 2) * R1 x + (A * (d * R2 x + R3 x) + (1 / 2 * R4 x + -nu * R5 x))) :=
    boxMean_mono hL (by fun_prop) (by fun_prop) hpt
  rw [boxMean_add L (by fun_prop) (by fun_prop), boxMean_sub L c1 c2, boxMean_add L (by fun_prop) (by fun_prop),
    boxMean_add L (f := Z1) d1 (by fun_prop), boxMean_add L (f := fun x => nu * Z3 x) (by fun_prop) (by fun_prop), boxMean_const_mul,
    boxMean_const_mul, boxMean_const_mul, boxMean_add L (by fun_prop) (by fun_prop), boxMean_const_mul,
    boxMean_add L (f := fun x => A * (d * R2 x + R3 x)) (by fun_prop) (by fun_prop), boxMean_const_mul, boxMean_add L (f := fun x => 1 / 2 * R4 x) (by fun_prop) (by fun_prop), boxMean_const_mul, boxMean_const_mul,
    boxMean_add L (f := fun x => d * R2 x) (by fun_prop) e3, boxMean_const_mul, show boxMean L (fun x => Z1 x) = 0 from z1, show boxMean L (fun x => Z2 x) = 0 from z2,
    show boxMean L (fun x => Z3 x) = 0 from z3, show boxMean L (fun x => Z4 x) = 0 from z4] at hm
  linarith

theorem energy_core (hL : ∀ i, 0 < L i) (hnu : 0 ≤ nu) (hA : 0 ≤ A)
    (cu : ∀ i, Continuous (u i)) (cf : ∀ i, Continuous (f i)) (ce : ∀ i, Continuous (e i)) (cv : ∀ i, Continuous (v i)) (cr : ∀ i, Continuous (r i))
    (cs : ∀ i, Continuous (s i)) (cdp : ∀ i, Continuous (dp i)) (cg : ∀ i j, Continuous (g i j)) (cl : ∀ i j, Continuous (l i j))
    (cde : ∀ i j, Continuous (de i j)) (cdv : ∀ i j, Continuous (dv i j)) (cgw : ∀ i j, Continuous (gw i j)) (cp : Continuous p) (cP : Continuous P)
    (hr : ∀ i x, u i x = r i x + e i x + v i x) (hde : ∀ i j x, de i j x = gw i j x - dv i j x)
    (dive : ∀ x, ∑ i, de i i x = 0) (divv : ∀ x, ∑ i, dv i i x = 0)
    (z1 : boxMean L (fun x => ∑ i, (dp i x * e i x + p x * de i i x)) = 0)
    (z2 : boxMean L (fun x => ∑ i, ∑ j, (l i j x * e i x + g i j x * de i j x)) = 0)
    (z3 : boxMean L (fun x => ∑ i, ∑ j, (g i j x - gw i j x) * de i j x) = 0)
    (z4 : boxMean L (fun x => ∑ i, ∑ j, (2 * e i x * de i j x * v j x + e i x ^ 2 * dv j j x)) = 0)
    (bu : ∀ i, ∀ x ∈ Set.Icc 0 L, |u i x| ≤ A) (bg : ∀ i j, ∀ x ∈ Set.Icc 0 L, |g i j x| ≤ A)
    (bh : ∀ i j, ∀ x ∈ Set.Icc 0 L, |g i j x - gw i j x| ≤ A) :
    boxMean L (fun x => ∑ i, (-(∑ j, u j x * g i j x) - dp i x + nu * ∑ j, l i j x + f i x) * e i x) -
      boxMean L (fun x => ∑ i, ((-(∑ j, v j x * dv i j x) + s i x) * e i x + P x * de i i x - nu * ∑ j, dv i j x * de i j x)) ≤
    (4 * d * A + 1 / 2) * boxMean L (fun x => ∑ i, e i x ^ 2) + A * (d * boxMean L (fun x => ∑ i, r i x ^ 2) +
      boxMean L (fun x => ∑ i, ∑ j, (g i j x - gw i j x) ^ 2)) + 1 / 2 * boxMean L (fun x => ∑ i, (f i x - s i x) ^ 2) := by
  refine (energy_core_diss hL hA cu cf ce cv cr cs cdp cg cl cde cdv cgw cp cP hr hde dive divv z1 z2 z3 z4 bu bg bh).trans ?_
  have := mul_nonneg hnu (boxMean_nonneg hL (f := fun x => ∑ i, ∑ j, de i j x ^ 2) fun x _ => Finset.sum_nonneg fun i _ => Finset.sum_nonneg fun j _ => sq_nonneg _)
  linarith

end

end SpectralDNS.Torus

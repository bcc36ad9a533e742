import Verif.Lemmas.Periodic
import Verif.Model.Fourier
import Verif.Spec.Convection

/-! Lemmas on the convective terms. -/

namespace SpectralDNS.Periodic

open Complex

variable {ι X : Type*} {d : ℕ}

theorem grad_fold (Tp : Space ι X) (K : Fin 3 → ι → ℝ) (Ui : ι → ℂ) (g : PArr 3 X) (j : Fin 3) :
    [0, 1, 2].foldl (gradPass Tp K Ui) g j = Tp.backward fun k => I * K j k * Ui k := by
  fin_cases j <;> simp [gradPass, Function.update]

theorem standard_convection_eq (rhs : SArr 3 ι) (g : PArr 3 X) (u_hat : SArr 3 ι) (Tp : Space ι X) (K : Fin 3 → ι → ℝ) :
    standard_convection rhs g (Tp.vbackward u_hat) u_hat Tp K = Spec.advection Tp.forward Tp.backward K u_hat := by
  have h : ∀ (st : PArr 3 X × SArr 3 ι) (i : Fin 3), stdPass (Tp.vbackward u_hat) u_hat Tp K st i =
      ([0, 1, 2].foldl (gradPass Tp K (u_hat i)) st.1,
        Function.update st.2 i (Spec.advection Tp.forward Tp.backward K u_hat i)) := by
    intro st i
    simp only [stdPass, grad_fold]
    rfl
  funext i
  simp only [standard_convection, List.foldl_cons, List.foldl_nil, h]
  fin_cases i <;> simp [Function.update]

theorem divergence_convection_eq (rhs UU : SArr 3 ι) (u_hat : SArr 3 ι) (Tp : Space ι X) (K : Fin 3 → ι → ℝ) (add : Bool)
    (i : Fin 3) (k : ι) :
    divergence_convection rhs UU (Tp.vbackward u_hat) Tp K add i k =
      (if add then rhs i k else 0) + Spec.divergenceForm Tp.forward Tp.backward K u_hat i k := by
  have hc : ∀ i j : Fin 3, (fun x => Tp.backward (u_hat i) x * Tp.backward (u_hat j) x) =
      fun x => Tp.backward (u_hat j) x * Tp.backward (u_hat i) x := fun i j => funext fun x => mul_comm _ _
  fin_cases i <;> cases add <;>
    simp [divergence_convection, addRow, Function.update, Spec.divergenceForm, Space.vbackward, Fin.sum_univ_three, hc 1 0,
      hc 2 0, hc 2 1] <;> ring

theorem convStandard_eq (w : Scratch 3 ι X) (rhs u_hat : SArr 3 ι) (Tp : Space ι X) (K : Fin 3 → ι → ℝ) (i : Fin 3) (k : ι) :
    convStandard w rhs u_hat Tp K i k = -Spec.advection Tp.forward Tp.backward K u_hat i k := by
  simp [convStandard, standard_convection_eq]

theorem convDivergence_eq (w : Scratch 3 ι X) (rhs u_hat : SArr 3 ι) (Tp : Space ι X) (K : Fin 3 → ι → ℝ) (i : Fin 3) (k : ι) :
    convDivergence w rhs u_hat Tp K i k = -Spec.divergenceForm Tp.forward Tp.backward K u_hat i k := by
  simp [convDivergence, divergence_convection_eq]

theorem convSkewed_eq (w : Scratch 3 ι X) (rhs u_hat : SArr 3 ι) (Tp : Space ι X) (K : Fin 3 → ι → ℝ) (i : Fin 3) (k : ι) :
    convSkewed w rhs u_hat Tp K i k = -(Spec.advection Tp.forward Tp.backward K u_hat i k +
      Spec.divergenceForm Tp.forward Tp.backward K u_hat i k) / 2 := by
  simp only [convSkewed, divergence_convection_eq, standard_convection_eq, if_true]
  norm_num
  ring

theorem convVortex_eq (w : Scratch 3 ι X) (rhs u_hat : SArr 3 ι) (Tp : Space ι X) (K : Fin 3 → ι → ℝ) :
    convVortex w rhs u_hat Tp K = Spec.lamb Tp.forward Tp.backward K u_hat := by
  funext i
  simp only [convVortex, compute_curl, cross2_3d_eq, Cross, Space.vforward, cross1_3d_eq, Spec.lamb]
  rfl

theorem dft_adjoint [Fintype ι] [Fintype X] (e : ι → X → ℂ) (w : ι → ℝ) :
    Spec.Adjoint w (1 / Fintype.card X) (dft e w).forward (dft e w).backward := by
  intro a f
  have h1 : ∀ k, w k * ((starRingEnd ℂ) (a k) * (dft e w).forward f k).re =
      ∑ x, (1 / (Fintype.card X : ℝ)) * (((w k : ℂ) * a k * e k x).re * f x) := by
    intro k
    have h : (starRingEnd ℂ) (a k) * (dft e w).forward f k =
        ((1 / (Fintype.card X : ℝ) : ℝ) : ℂ) * ∑ x, (f x : ℂ) * (starRingEnd ℂ) (a k * e k x) := by
      simp only [dft, map_mul]
      push_cast
      rw [mul_left_comm, Finset.mul_sum]
      congr 1
      exact Finset.sum_congr rfl fun x _ => by ring
    rw [h, re_ofReal_mul, re_sum, Finset.mul_sum, Finset.mul_sum]
    refine Finset.sum_congr rfl fun x _ => ?_
    rw [re_ofReal_mul, conj_re, mul_assoc (w k : ℂ), re_ofReal_mul]
    ring
  rw [Finset.sum_congr rfl fun k _ => h1 k, Finset.sum_comm, Finset.mul_sum]
  refine Finset.sum_congr rfl fun x _ => ?_
  simp only [dft, re_sum]
  rw [← Finset.mul_sum, Finset.sum_mul]

end SpectralDNS.Periodic

import Verif.Lemmas.EnergyError
import Verif.Props.WeakNS
import Verif.Props.GlobalSolutions
import Mathlib.Analysis.ODE.Gronwall
import Mathlib.Analysis.InnerProductSpace.Calculus

/-!
# Galerkin solutions follow classical solutions
-/

namespace SpectralDNS.Torus

open Complex Spec Periodic Dealias MeasureTheory
open scoped ContDiff

section
variable {n : ℕ} (N : Fin (n + 1) → ℕ) (L : Fin (n + 1) → ℝ)

theorem fn_sub (a b : RModes N → ℂ) (x : Fin (n + 1) → ℝ) : fn N L (fun k => a k - b k) x = fn N L a x - fn N L b x := by
  simp only [fn_eq, ← Finset.sum_sub_distrib, ← sub_re]
  exact Finset.sum_congr rfl fun k _ => congrArg _ (by ring)

theorem pderiv_fn_sub (a b : RModes N → ℂ) (j : Fin (n + 1)) (x : Fin (n + 1) → ℝ) :
    pderiv j (fn N L fun k => a k - b k) x = pderiv j (fn N L a) x - pderiv j (fn N L b) x := by
  simp only [fn, pderiv_trigField]
  rw [← fn, ← fn, ← fn_sub]
  congr 1
  funext k
  simp only [Spec.deriv, mul_sub]

theorem boxMean_sum_zero {J : Type*} [Fintype J] {F : J → (Fin (n + 1) → ℝ) → ℝ} (hc : ∀ j, Continuous (F j)) (h : ∀ j, boxMean L (F j) = 0) :
    boxMean L (fun x => ∑ j, F j x) = 0 := by
  rw [boxMean_sum L _ hc]
  exact Finset.sum_eq_zero fun j _ => h j

theorem parts_zero (hL : ∀ i, 0 < L i) {f g : (Fin (n + 1) → ℝ) → ℝ} (hf : ContDiff ℝ 1 f) (hg : ContDiff ℝ 1 g)
    (pf : BoxPeriodic L f) (pg : BoxPeriodic L g) (j : Fin (n + 1)) : boxMean L (fun x => pderiv j f x * g x + f x * pderiv j g x) = 0 := by
  have c1 : Continuous fun x => pderiv j f x * g x := (continuous_pderiv hf j).mul hg.continuous
  have c2 : Continuous fun x => f x * pderiv j g x := hf.continuous.mul (continuous_pderiv hg j)
  rw [boxMean_add L c1 c2, boxMean_parts (fun i => (hL i).le) hf hg pf pg j]
  ring

variable {N L}

/-- Work of the equation minus work of the Galerkin equation on the difference. -/
theorem error_work_diss (hN : ∀ i, 0 < N i) (hL : ∀ i, 0 < L i) {nu A : ℝ} (hA : 0 ≤ A) {u : Fin (n + 1) → (Fin (n + 1) → ℝ) → ℝ}
    (hu : ∀ i, ContDiff ℝ ∞ (u i)) (hp : ∀ i, BoxPeriodic L (u i)) (hdiv : ∀ x, ∑ i, pderiv i (u i) x = 0) {p : (Fin (n + 1) → ℝ) → ℝ}
    (hpc : ContDiff ℝ 1 p) (hpp : BoxPeriodic L p) {f : Fin (n + 1) → (Fin (n + 1) → ℝ) → ℝ} (hf : ∀ i, Continuous (f i))
    (U S : SArr (n + 1) (RModes N)) (hUs : Solenoidal (scaledWaves N L) U) (hUm : ∀ i, Unmasked N (U i)) (P : RModes N → ℂ)
    (bu : ∀ i, ∀ x ∈ Set.Icc 0 L, |u i x| ≤ A) (bg : ∀ i j, ∀ x ∈ Set.Icc 0 L, |pderiv j (u i) x| ≤ A)
    (bh : ∀ i j, ∀ x ∈ Set.Icc 0 L, |pderiv j (u i) x - fn N L (proj N L (pderiv j (u i))) x| ≤ A) :
    let E : SArr (n + 1) (RModes N) := fun i k => proj N L (u i) k - U i k
    boxMean L (fun x => ∑ i, (-(∑ j, u j x * pderiv j (u i) x) - pderiv i p x + nu * ∑ j, pderiv j (pderiv j (u i)) x + f i x) * fn N L (E i) x) -
      momentumWork L nu (fun i => fn N L (U i)) (fun i => fn N L (S i)) (fun i => fn N L (E i)) (fn N L P) ≤
    (4 * ((n + 1 : ℕ) : ℝ) * A + 1 / 2) * boxMean L (fun x => ∑ i, fn N L (E i) x ^ 2) +
      A * (((n + 1 : ℕ) : ℝ) * boxMean L (fun x => ∑ i, (u i x - fn N L (proj N L (u i)) x) ^ 2) +
        boxMean L (fun x => ∑ i, ∑ j, (pderiv j (u i) x - fn N L (proj N L (pderiv j (u i))) x) ^ 2)) +
      1 / 2 * boxMean L (fun x => ∑ i, (f i x - fn N L (S i) x) ^ 2) -
      nu * boxMean L (fun x => ∑ i, ∑ j, pderiv j (fn N L (E i)) x ^ 2) := by
  intro E
  have l1 : ∀ {g : (Fin (n + 1) → ℝ) → ℝ}, ContDiff ℝ ∞ g → ContDiff ℝ 1 g := fun h => h.of_le (by exact_mod_cast le_top)
  have hg : ∀ i j, ContDiff ℝ ∞ (pderiv j (u i)) := fun i j => contDiff_pderiv (m := ⊤) ((hu i).of_le (by simp)) j
  have hl : ∀ i j, ContDiff ℝ ∞ (pderiv j (pderiv j (u i))) := fun i j => contDiff_pderiv (m := ⊤) ((hg i j).of_le (by simp)) j
  have hfn : ∀ a, ContDiff ℝ ∞ (fn N L a) := fn_contDiff N L
  have hdfn : ∀ a j, ContDiff ℝ ∞ (pderiv j (fn N L a)) := fun a j => contDiff_pderiv (m := ⊤) ((hfn a).of_le (by simp)) j
  have hEm : ∀ i, Unmasked N (E i) := fun i k hk => by simp only [E, proj_unmasked N L (u i) k hk, hUm i k hk, sub_zero]
  have hEs : Solenoidal (scaledWaves N L) E := fun k => by
    have h1 := proj_solenoidal N L hL (fun i => l1 (hu i)) hp hdiv k
    have h2 := hUs k
    simp only [dot, at', E, mul_sub, Finset.sum_sub_distrib] at h1 h2 ⊢
    rw [h1, h2, sub_zero]
  have pfn : ∀ a, BoxPeriodic L (fn N L a) := fn_periodic N L hL
  refine energy_core_diss hL hA (r := fun i x => u i x - fn N L (proj N L (u i)) x) (v := fun i => fn N L (U i)) (p := p)
    (g := fun i j => pderiv j (u i)) (l := fun i j => pderiv j (pderiv j (u i))) (dv := fun i j => pderiv j (fn N L (U i)))
    (de := fun i j => pderiv j (fn N L (E i))) (gw := fun i j => fn N L (proj N L (pderiv j (u i)))) (e := fun i => fn N L (E i))
    (P := fn N L P) (s := fun i => fn N L (S i)) (dp := fun i => pderiv i p)
    (fun i => (hu i).continuous) hf (fun i => (hfn _).continuous) (fun i => (hfn _).continuous) (fun i => (hu i).continuous.sub (hfn _).continuous)
    (fun i => (hfn _).continuous) (fun i => continuous_pderiv hpc i) (fun i j => (hg i j).continuous) (fun i j => (hl i j).continuous)
    (fun i j => (hdfn _ j).continuous) (fun i j => (hdfn _ j).continuous) (fun i j => (hfn _).continuous) hpc.continuous (hfn _).continuous
    (fun i x => ?_) (fun i j x => ?_) (C83_divergence N L E hEs) (C83_divergence N L U hUs) ?_ ?_ ?_ ?_ bu bg bh
  · simp only [E, fn_sub]
    ring
  · simp only [E, pderiv_fn_sub]
    rw [pderiv_proj N L hL (l1 (hu i)) (hp i)]
  · refine boxMean_sum_zero L (fun i => ?_) fun i => parts_zero L hL hpc (l1 (hfn _)) hpp (pfn _) i
    exact ((continuous_pderiv hpc i).mul (hfn _).continuous).add (hpc.continuous.mul (hdfn _ i).continuous)
  · refine boxMean_sum_zero L (fun i => ?_) fun i => boxMean_sum_zero L (fun j => ?_) fun j =>
      parts_zero L hL (l1 (hg i j)) (l1 (hfn _)) ((hp i).pderiv j) (pfn _) j
    · exact continuous_finsetSum _ fun j _ => ((hl i j).continuous.mul (hfn _).continuous).add ((hg i j).continuous.mul (hdfn _ j).continuous)
    · exact ((hl i j).continuous.mul (hfn _).continuous).add ((hg i j).continuous.mul (hdfn _ j).continuous)
  · refine boxMean_sum_zero L (fun i => ?_) fun i => boxMean_sum_zero L (fun j => ?_) fun j => ?_
    · exact continuous_finsetSum _ fun j _ => ((hg i j).continuous.sub (hfn _).continuous).mul (hdfn _ j).continuous
    · exact ((hg i j).continuous.sub (hfn _).continuous).mul (hdfn _ j).continuous
    · rw [show pderiv j (fn N L (E i)) = fn N L (Spec.deriv (scaledWaves N L) j (E i)) from pderiv_trigField _ _ _ _]
      exact proj_orth N L hN hL (hg i j).continuous (unmasked_deriv (hEm i) j)
  · have hsq : ∀ i, ContDiff ℝ 1 fun x => fn N L (E i) x * fn N L (E i) x := fun i => l1 ((hfn _).mul (hfn _))
    have e : ∀ i j x, 2 * fn N L (E i) x * pderiv j (fn N L (E i)) x * fn N L (U j) x + fn N L (E i) x ^ 2 * pderiv j (fn N L (U j)) x =
        pderiv j (fun x => fn N L (E i) x * fn N L (E i) x) x * fn N L (U j) x + fn N L (E i) x * fn N L (E i) x * pderiv j (fn N L (U j)) x := fun i j x => by
      rw [pderiv_mul ((hfn _).differentiable (by simp)) ((hfn _).differentiable (by simp))]
      ring
    simp only [e]
    have hc : ∀ i j, Continuous fun x => pderiv j (fun x => fn N L (E i) x * fn N L (E i) x) x * fn N L (U j) x +
        fn N L (E i) x * fn N L (E i) x * pderiv j (fn N L (U j)) x := fun i j =>
      ((continuous_pderiv (hsq i) j).mul (hfn _).continuous).add ((hsq i).continuous.mul (hdfn _ j).continuous)
    refine boxMean_sum_zero L (fun i => continuous_finsetSum _ fun j _ => hc i j) fun i => boxMean_sum_zero L (hc i) fun j => ?_
    exact parts_zero L hL (hsq i) (l1 (hfn _)) ((pfn _).mul (pfn _)) (pfn _) j

theorem error_work (hN : ∀ i, 0 < N i) (hL : ∀ i, 0 < L i) {nu A : ℝ} (hnu : 0 ≤ nu) (hA : 0 ≤ A) {u : Fin (n + 1) → (Fin (n + 1) → ℝ) → ℝ}
    (hu : ∀ i, ContDiff ℝ ∞ (u i)) (hp : ∀ i, BoxPeriodic L (u i)) (hdiv : ∀ x, ∑ i, pderiv i (u i) x = 0) {p : (Fin (n + 1) → ℝ) → ℝ}
    (hpc : ContDiff ℝ 1 p) (hpp : BoxPeriodic L p) {f : Fin (n + 1) → (Fin (n + 1) → ℝ) → ℝ} (hf : ∀ i, Continuous (f i))
    (U S : SArr (n + 1) (RModes N)) (hUs : Solenoidal (scaledWaves N L) U) (hUm : ∀ i, Unmasked N (U i)) (P : RModes N → ℂ)
    (bu : ∀ i, ∀ x ∈ Set.Icc 0 L, |u i x| ≤ A) (bg : ∀ i j, ∀ x ∈ Set.Icc 0 L, |pderiv j (u i) x| ≤ A)
    (bh : ∀ i j, ∀ x ∈ Set.Icc 0 L, |pderiv j (u i) x - fn N L (proj N L (pderiv j (u i))) x| ≤ A) :
    let E : SArr (n + 1) (RModes N) := fun i k => proj N L (u i) k - U i k
    boxMean L (fun x => ∑ i, (-(∑ j, u j x * pderiv j (u i) x) - pderiv i p x + nu * ∑ j, pderiv j (pderiv j (u i)) x + f i x) * fn N L (E i) x) -
      momentumWork L nu (fun i => fn N L (U i)) (fun i => fn N L (S i)) (fun i => fn N L (E i)) (fn N L P) ≤
    (4 * ((n + 1 : ℕ) : ℝ) * A + 1 / 2) * boxMean L (fun x => ∑ i, fn N L (E i) x ^ 2) +
      A * (((n + 1 : ℕ) : ℝ) * boxMean L (fun x => ∑ i, (u i x - fn N L (proj N L (u i)) x) ^ 2) +
        boxMean L (fun x => ∑ i, ∑ j, (pderiv j (u i) x - fn N L (proj N L (pderiv j (u i))) x) ^ 2)) +
      1 / 2 * boxMean L (fun x => ∑ i, (f i x - fn N L (S i) x) ^ 2) := by
  intro E
  refine (error_work_diss hN hL hA hu hp hdiv hpc hpp hf U S hUs hUm P bu bg bh).trans ?_
  have := mul_nonneg hnu (boxMean_nonneg hL (f := fun x => ∑ i, ∑ j, pderiv j (fn N L (E i)) x ^ 2) fun x _ => Finset.sum_nonneg fun i _ => Finset.sum_nonneg fun j _ => sq_nonneg _)
  linarith

end

end SpectralDNS.Torus

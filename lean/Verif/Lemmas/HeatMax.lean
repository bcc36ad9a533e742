import Mathlib.Analysis.Calculus.DerivativeTest
import Mathlib.Analysis.Calculus.Deriv.Slope
import Mathlib.Analysis.Calculus.LocalExtr.Basic
import Mathlib.Topology.Order.Compact
import Mathlib.Topology.MetricSpace.ProperSpace.Real

/-!
# The maximum principle for the heat equation between two walls
-/

namespace SpectralDNS.Heat

open Set Filter Topology

/-- The second derivative at a maximum is not positive. -/
theorem second_nonpos {f f1 : ℝ → ℝ} {f2 x : ℝ} (h1 : ∀ᶠ y in 𝓝 x, HasDerivAt f (f1 y) y) (h2 : HasDerivAt f1 f2 x) (hm : IsLocalMax f x) : f2 ≤ 0 := by
  by_contra hc
  push Not at hc
  have e1 : deriv f =ᶠ[𝓝 x] f1 := h1.mono fun y hy => hy.deriv
  have e2 : deriv (deriv f) x = f2 := (h2.congr_of_eventuallyEq e1).deriv
  have hmin := isLocalMin_of_deriv_deriv_pos (f := f) (x₀ := x) (by rw [e2]; exact hc) hm.deriv_eq_zero h1.self_of_nhds.continuousAt
  have hconst : f =ᶠ[𝓝 x] fun _ => f x := by
    filter_upwards [hmin, hm] with y a b using le_antisymm b a
  have e3 : deriv f =ᶠ[𝓝 x] fun _ => 0 := by
    have := hconst.deriv
    refine this.trans (Eventually.of_forall fun y => ?_)
    simp
  have e4 : deriv (deriv f) x = 0 := by
    rw [e3.deriv_eq]; simp
  rw [e2] at e4
  exact hc.ne' e4

theorem left_nonneg {f : ℝ → ℝ} {f' t : ℝ} (ht : 0 < t) (h : HasDerivAt f f' t) (hm : ∀ s ∈ Icc 0 t, f s ≤ f t) : 0 ≤ f' := by
  have hsub : Iio t ⊆ {t}ᶜ := fun y hy => ne_of_lt hy
  have h1 : Tendsto (slope f t) (𝓝[<] t) (𝓝 f') := (hasDerivAt_iff_tendsto_slope.1 h).mono_left (nhdsWithin_mono t hsub)
  refine ge_of_tendsto h1 ?_
  filter_upwards [Ioo_mem_nhdsLT ht] with s hs
  rw [slope_def_field]
  exact div_nonneg_of_nonpos (by linarith [hm s ⟨hs.1.le, hs.2.le⟩]) (by linarith [hs.2])

/-- A solution of the heat equation does not exceed its values at the start and at the walls. -/
theorem heat_max {nu c : ℝ} (hnu : 0 ≤ nu) {w : ℝ → ℝ → ℝ} (hcont : ContinuousOn (fun p : ℝ × ℝ => w p.1 p.2) (Ici 0 ×ˢ Icc (-1) 1))
    (h0 : ∀ x ∈ Icc (-1 : ℝ) 1, w 0 x ≤ c) (hw : ∀ t, 0 ≤ t → w t 1 ≤ c ∧ w t (-1) ≤ c) {wx wxx : ℝ → ℝ → ℝ}
    (heq : ∀ t, 0 < t → ∀ x ∈ Ioo (-1 : ℝ) 1, HasDerivAt (w t) (wx t x) x ∧ HasDerivAt (wx t) (wxx t x) x ∧ HasDerivAt (fun s => w s x) (nu * wxx t x) t) :
    ∀ t, 0 ≤ t → ∀ x ∈ Icc (-1 : ℝ) 1, w t x ≤ c := by
  intro T hT x hx
  have key : ∀ e : ℝ, 0 < e → w T x - e * T ≤ c := by
    intro e he
    have hK : IsCompact (Icc (0 : ℝ) T ×ˢ Icc (-1 : ℝ) 1) := isCompact_Icc.prod isCompact_Icc
    have hne : (Icc (0 : ℝ) T ×ˢ Icc (-1 : ℝ) 1).Nonempty := ⟨(0, 0), ⟨le_rfl, hT⟩, by norm_num, by norm_num⟩
    have hc : ContinuousOn (fun p : ℝ × ℝ => w p.1 p.2 - e * p.1) (Icc (0 : ℝ) T ×ˢ Icc (-1 : ℝ) 1) :=
      (hcont.mono (prod_mono (fun t ht => ht.1) le_rfl)).sub (continuous_const.mul continuous_fst).continuousOn
    obtain ⟨⟨t, y⟩, ⟨ht, hy⟩, hmax⟩ := hK.exists_isMaxOn hne hc
    have hmax' : ∀ s z, s ∈ Icc 0 T → z ∈ Icc (-1 : ℝ) 1 → w s z - e * s ≤ w t y - e * t := fun s z hs hz => hmax (a := (s, z)) ⟨hs, hz⟩
    refine (hmax' T x ⟨hT, le_rfl⟩ hx).trans ?_
    have ht0 : 0 ≤ t := ht.1
    have het : 0 ≤ e * t := mul_nonneg he.le ht0
    rcases eq_or_lt_of_le ht0 with h | h
    · rw [← h, mul_zero, sub_zero]
      exact h0 y hy
    rcases eq_or_lt_of_le hy.1 with h1 | h1
    · have := (hw t ht0).2
      rw [h1] at this
      linarith
    rcases eq_or_lt_of_le hy.2 with h2 | h2
    · have := (hw t ht0).1
      rw [← h2] at this
      linarith
    exfalso
    obtain ⟨-, d2, d3⟩ := heq t h y ⟨h1, h2⟩
    have hxx : wxx t y ≤ 0 := by
      refine second_nonpos (f := w t) (f1 := wx t) ?_ d2 ?_
      · filter_upwards [Ioo_mem_nhds h1 h2] with z hz using (heq t h z hz).1
      · filter_upwards [Ioo_mem_nhds h1 h2] with z hz
        have := hmax' t z ht ⟨hz.1.le, hz.2.le⟩
        linarith
    have hd : HasDerivAt (fun s => w s y - e * s) (nu * wxx t y - e) t := by
      have h3 : HasDerivAt (fun s : ℝ => e * s) e t := by simpa using (hasDerivAt_id t).const_mul e
      exact d3.sub h3
    have hge := left_nonneg h hd fun s hs => hmax' s y ⟨hs.1, hs.2.trans ht.2⟩ hy
    have := mul_nonpos_of_nonneg_of_nonpos hnu hxx
    linarith
  by_contra hlt
  push Not at hlt
  have h := key ((w T x - c) / (2 * (T + 1))) (div_pos (by linarith) (by linarith))
  have h2 : (w T x - c) / (2 * (T + 1)) * T ≤ (w T x - c) / 2 := by
    rw [div_mul_eq_mul_div, div_le_div_iff₀ (by linarith) two_pos]
    nlinarith
  linarith

end SpectralDNS.Heat

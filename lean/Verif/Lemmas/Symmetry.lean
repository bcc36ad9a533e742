import Verif.Props.Invariants

/-!
# Symmetries of the equations in Fourier space

A symmetry acts on the coefficients of a scalar by a real-linear map `σ`, on vectors by `σ`, a permutation `π` of the axes and signs `s`.
-/

namespace SpectralDNS.Periodic

open Complex Spec

variable {d : ℕ} {ι X : Type*}

/-- The sign as a real number. -/
def sgR (z : ℤˣ) : ℝ := ((z : ℤ) : ℝ)

theorem sgR_mul_self (z : ℤˣ) : sgR z * sgR z = 1 := by rcases Int.units_eq_one_or z with rfl | rfl <;> simp [sgR]

/-- Derivative as a linear map. -/
noncomputable def D (K : Fin d → ι → ℝ) (j : Fin d) : (ι → ℂ) →ₗ[ℝ] (ι → ℂ) where
  toFun := Spec.deriv K j
  map_add' a b := by funext k; simp only [Spec.deriv, Pi.add_apply]; ring
  map_smul' r a := by funext k; simp only [Spec.deriv, Pi.smul_apply, real_smul, RingHom.id_apply]; ring

/-- The mask on one component. -/
def keepL (mask : Option (ι → Bool)) : (ι → ℂ) →ₗ[ℝ] (ι → ℂ) where
  toFun a k := if keeps mask k then a k else 0
  map_add' a b := by funext k; simp only [Pi.add_apply]; split <;> simp
  map_smul' r a := by funext k; simp only [Pi.smul_apply, RingHom.id_apply]; split <;> simp

theorem keepL_vanishes (mask : Option (ι → Bool)) (a : ι → ℂ) : Vanishes mask (keepL mask a) := fun k hk => by simp [keepL, hk]

theorem keepL_of_vanishes {mask : Option (ι → Bool)} {a : ι → ℂ} (h : Vanishes mask a) : keepL mask a = a := by
  funext k
  by_cases hk : keeps mask k = true
  · simp [keepL, hk]
  · simp [keepL, hk, h k (by simpa using hk)]

theorem keepL_D (mask : Option (ι → Bool)) (K : Fin d → ι → ℝ) (j : Fin d) (a : ι → ℂ) : keepL mask (D K j a) = D K j (keepL mask a) := by
  funext k
  by_cases hk : keeps mask k = true <;> simp [keepL, D, Spec.deriv, hk]

theorem vanishes_D {mask : Option (ι → Bool)} {a : ι → ℂ} (h : Vanishes mask a) (K : Fin d → ι → ℝ) (j : Fin d) : Vanishes mask (D K j a) :=
  fun k hk => by simp [D, Spec.deriv, h k hk]

theorem vanishes_smul {mask : Option (ι → Bool)} {a : ι → ℂ} (h : Vanishes mask a) (r : ℝ) : Vanishes mask (r • a) :=
  fun k hk => by simp [h k hk]

/-- The masked coefficients of a product computed on the grid. -/
noncomputable def pr (T : Space ι X) (mask : Option (ι → Bool)) (a c : ι → ℂ) : ι → ℂ :=
  keepL mask (T.forward fun x => T.backward a x * T.backward c x)

theorem pr_sg {T : Space ι X} (H : Additive T) (mask : Option (ι → Bool)) (y z : ℤˣ) (a c : ι → ℂ) :
    pr T mask (sgR y • a) (sgR z • c) = (sgR y * sgR z) • pr T mask a c := by
  have hn : ∀ a : ι → ℂ, T.backward (-a) = fun x => -T.backward a x := fun a => H.backward_neg a
  have hf : ∀ f : X → ℝ, T.forward (fun x => -f x) = -T.forward f := fun f => H.forward_neg f
  rcases Int.units_eq_one_or y with rfl | rfl <;> rcases Int.units_eq_one_or z with rfl | rfl <;>
    simp [sgR, pr, hn, hf]

theorem pr_sg_left {T : Space ι X} (H : Additive T) (mask : Option (ι → Bool)) (y : ℤˣ) (a c : ι → ℂ) :
    pr T mask (sgR y • a) c = sgR y • pr T mask a c := by
  have h := pr_sg H mask y 1 a c
  simpa [show sgR 1 = 1 by simp [sgR]] using h

theorem pr_sg_right {T : Space ι X} (H : Additive T) (mask : Option (ι → Bool)) (z : ℤˣ) (a c : ι → ℂ) :
    pr T mask a (sgR z • c) = sgR z • pr T mask a c := by
  have h := pr_sg H mask 1 z a c
  simpa [show sgR 1 = 1 by simp [sgR]] using h

theorem Additive.forward_sum {T : Space ι X} (H : Additive T) {α : Type*} (s : Finset α) (f : α → X → ℝ) :
    T.forward (fun x => ∑ j ∈ s, f j x) = ∑ j ∈ s, T.forward (f j) := by
  classical
  induction s using Finset.induction_on with
  | empty => simp only [Finset.sum_empty]; exact H.forward_zero
  | insert a s ha ih =>
    simp only [Finset.sum_insert ha]
    rw [← ih]
    exact H.forward (f a) fun x => ∑ j ∈ s, f j x

theorem Additive.forward_sub {T : Space ι X} (H : Additive T) (f g : X → ℝ) : T.forward (fun x => f x - g x) = T.forward f - T.forward g := by
  have h1 := H.forward f fun x => -g x
  simp only [← sub_eq_add_neg] at h1
  rw [h1, H.forward_neg]
  funext k
  simp [sub_eq_add_neg]

theorem Additive.backward_sub {T : Space ι X} (H : Additive T) (a b : ι → ℂ) : T.backward (a - b) = T.backward a - T.backward b := by
  have h1 := H.backward a fun k => -b k
  rw [show a - b = fun k => a k + -b k by funext k; simp [sub_eq_add_neg], h1, H.backward_neg]
  funext k
  simp [sub_eq_add_neg]

/-! ## The nonlinear terms as sums of products and derivatives -/

section
variable {T : Space ι X} (H : Additive T) (mask : Option (ι → Bool)) (K : Fin d → ι → ℝ)
include H

theorem keep_advection (u : SArr d ι) (i : Fin d) :
    keepL mask (advection T.forward T.backward K u i) = ∑ j, pr T mask (u j) (D K j (u i)) := by
  unfold advection
  rw [H.forward_sum, map_sum]
  rfl

omit H in
theorem keep_divergenceForm (u : SArr d ι) (i : Fin d) :
    keepL mask (divergenceForm T.forward T.backward K u i) = ∑ j, D K j (pr T mask (u i) (u j)) := by
  have h : divergenceForm T.forward T.backward K u i = ∑ j, D K j (T.forward fun x => T.backward (u i) x * T.backward (u j) x) := by
    funext k; simp [divergenceForm, D, Spec.deriv]
  rw [h, map_sum]
  exact Finset.sum_congr rfl fun j _ => keepL_D ..

theorem keep_stressDiv (u b : SArr d ι) (i : Fin d) :
    keepL mask (stressDiv T.forward T.backward K u b i) = ∑ j, D K j (pr T mask (u i) (u j) - pr T mask (b i) (b j)) := by
  have h : stressDiv T.forward T.backward K u b i = ∑ j, D K j (T.forward fun x => T.backward (u i) x * T.backward (u j) x -
      T.backward (b i) x * T.backward (b j) x) := by funext k; simp [stressDiv, D, Spec.deriv]
  rw [h, map_sum]
  exact Finset.sum_congr rfl fun j _ => by rw [keepL_D, H.forward_sub, map_sub]; rfl

theorem keep_induction (u b : SArr d ι) (i : Fin d) :
    keepL mask (induction T.forward T.backward K u b i) = ∑ j, D K j (pr T mask (b j) (u i) - pr T mask (u j) (b i)) := by
  have h : induction T.forward T.backward K u b i = ∑ j, D K j (T.forward fun x => T.backward (b j) x * T.backward (u i) x -
      T.backward (u j) x * T.backward (b i) x) := by funext k; simp [induction, D, Spec.deriv]
  rw [h, map_sum]
  exact Finset.sum_congr rfl fun j _ => by rw [keepL_D, H.forward_sub, map_sub]; rfl

omit H in
theorem keep_fluxDiv (u : SArr d ι) (rho : ι → ℂ) :
    keepL mask (fluxDiv T.forward T.backward K u rho) = ∑ j, D K j (pr T mask (u j) rho) := by
  have h : fluxDiv T.forward T.backward K u rho = ∑ j, D K j (T.forward fun x => T.backward (u j) x * T.backward rho x) := by
    funext k; simp [fluxDiv, D, Spec.deriv]
  rw [h, map_sum]
  exact Finset.sum_congr rfl fun j _ => keepL_D ..

/-- `u x curl u` has the components `u_j (d_i u_j - d_j u_i)`. -/
theorem keep_lamb (K : Fin 3 → ι → ℝ) (u : SArr 3 ι) (i : Fin 3) :
    keepL mask (lamb T.forward T.backward K u i) = ∑ j, (pr T mask (u j) (D K i (u j)) - pr T mask (u j) (D K j (u i))) := by
  have hc : ∀ j, curl K u j = D K (j + 1) (u (j + 2)) - D K (j + 2) (u (j + 1)) := fun j => by
    funext k; simp only [curl, cross, D, Spec.deriv, Pi.sub_apply, LinearMap.coe_mk, AddHom.coe_mk]; ring
  have h : (fun x => cross (fun j => T.backward (u j) x) (fun j => T.backward (curl K u j) x) i) =
      fun x => ∑ j, (T.backward (u j) x * T.backward (D K i (u j)) x - T.backward (u j) x * T.backward (D K j (u i)) x) := by
    funext x
    obtain ⟨h1, h2, h3, h4, h5, h6⟩ := fin3_add
    fin_cases i <;>
      simp only [cross, hc, H.backward_sub, Pi.sub_apply, Fin.sum_univ_three, Fin.zero_eta, Fin.mk_one, Fin.reduceFinMk, h1, h2, h3, h4, h5, h6] <;> ring
  unfold lamb
  rw [h, H.forward_sum, map_sum]
  exact Finset.sum_congr rfl fun j _ => by rw [H.forward_sub, map_sub]; rfl

theorem keep_lamb2 (K : Fin 2 → ι → ℝ) (u : SArr 2 ι) (i : Fin 2) :
    keepL mask (lamb2 T.forward T.backward K u i) = ∑ j, (pr T mask (u j) (D K i (u j)) - pr T mask (u j) (D K j (u i))) := by
  have hc : (fun k => I * (K 0 k * u 1 k - K 1 k * u 0 k)) = D K 0 (u 1) - D K 1 (u 0) := by
    funext k; simp only [D, Spec.deriv, Pi.sub_apply, LinearMap.coe_mk, AddHom.coe_mk]; ring
  have h : lamb2 T.forward T.backward K u i = T.forward fun x => ∑ j, (T.backward (u j) x * T.backward (D K i (u j)) x -
      T.backward (u j) x * T.backward (D K j (u i)) x) := by
    fin_cases i <;> simp [lamb2, hc, H.backward_sub, Fin.sum_univ_two] <;> congr 1 <;> funext x <;> ring
  rw [h, H.forward_sum, map_sum]
  exact Finset.sum_congr rfl fun j _ => by rw [H.forward_sub, map_sub]; rfl

end

/-! ## Symmetries -/

/-- A symmetry of the transforms, the wavenumbers and the mask. -/
structure Symm (T : Space ι X) (K : Fin d → ι → ℝ) (mask : Option (ι → Bool)) (σ : (ι → ℂ) →ₗ[ℝ] (ι → ℂ)) (π : Equiv.Perm (Fin d))
    (s : Fin d → ℤˣ) : Prop where
  deriv : ∀ i a, σ (D K (π i) a) = sgR (s i) • D K i (σ a)
  keep : ∀ a, σ (keepL mask a) = keepL mask (σ a)
  product : ∀ a c, Vanishes mask a → Vanishes mask c → pr T mask (σ a) (σ c) = σ (pr T mask a c)

/-- The action on vectors. -/
noncomputable def turn (σ : (ι → ℂ) →ₗ[ℝ] (ι → ℂ)) (π : Equiv.Perm (Fin d)) (s : Fin d → ℤˣ) : SArr d ι →ₗ[ℝ] SArr d ι where
  toFun u i := sgR (s i) • σ (u (π i))
  map_add' u v := by funext i; simp
  map_smul' r u := by funext i; simp [smul_comm r]

section
variable {T : Space ι X} {K : Fin d → ι → ℝ} {mask : Option (ι → Bool)} {σ : (ι → ℂ) →ₗ[ℝ] (ι → ℂ)} {π : Equiv.Perm (Fin d)} {s : Fin d → ℤˣ}
variable (S : Symm T K mask σ π s)
include S

theorem Symm.D_σ (i : Fin d) (a : ι → ℂ) : D K i (σ a) = sgR (s i) • σ (D K (π i) a) := by
  rw [S.deriv, smul_smul, sgR_mul_self, one_smul]

theorem Symm.vanishes {a : ι → ℂ} (h : Vanishes mask a) : Vanishes mask (σ a) := by
  rw [← keepL_of_vanishes h, S.keep]
  exact keepL_vanishes mask _

theorem Symm.vanishes_turn {u : SArr d ι} (h : ∀ i, Vanishes mask (u i)) (i : Fin d) : Vanishes mask (turn σ π s u i) :=
  vanishes_smul (S.vanishes (h (π i))) _

theorem Symm.div_turn (u : SArr d ι) : ∑ j, D K j (turn σ π s u j) = σ (∑ j, D K j (u j)) := by
  rw [map_sum, ← Equiv.sum_comp π fun j => σ _]
  refine Finset.sum_congr rfl fun j _ => ?_
  show D K j (sgR (s j) • σ (u (π j))) = _
  rw [map_smul, S.D_σ, smul_smul, sgR_mul_self, one_smul]

theorem Symm.laplace (a : ι → ℂ) : ∑ j, D K j (D K j (σ a)) = σ (∑ j, D K j (D K j a)) := by
  rw [map_sum, ← Equiv.sum_comp π fun j => σ _]
  refine Finset.sum_congr rfl fun j _ => ?_
  rw [S.D_σ, map_smul, S.D_σ, smul_smul, sgR_mul_self, one_smul]

end

theorem laplace_eq (K : Fin d → ι → ℝ) (a : ι → ℂ) : ∑ j, D K j (D K j a) = fun k => -(K2 K k : ℂ) * a k := by
  funext k
  simp only [Finset.sum_apply, D, Spec.deriv, LinearMap.coe_mk, AddHom.coe_mk, K2, ofReal_sum, ofReal_mul, ← Finset.sum_neg_distrib, Finset.sum_mul]
  exact Finset.sum_congr rfl fun j _ => by linear_combination (K j k : ℂ) * K j k * a k * I_mul_I

/-- Division by `|k|^2`, by one where it vanishes. -/
noncomputable def inv2 (K : Fin d → ι → ℝ) (a : ι → ℂ) : ι → ℂ := fun k => a k / ((if K2 K k = 0 then 1 else K2 K k : ℝ) : ℂ)

theorem Symm.inv2 {T : Space ι X} {K : Fin d → ι → ℝ} {mask : Option (ι → Bool)} {σ : (ι → ℂ) →ₗ[ℝ] (ι → ℂ)} {π : Equiv.Perm (Fin d)}
    {s : Fin d → ℤˣ} (S : Symm T K mask σ π s) (a : ι → ℂ) : inv2 K (σ a) = σ (inv2 K a) := by
  have hL : ∀ a, σ (fun k => (K2 K k : ℂ) * a k) = fun k => (K2 K k : ℂ) * σ a k := fun a => by
    have h := S.laplace a
    rw [laplace_eq, laplace_eq, show (fun k => -(K2 K k : ℂ) * a k) = -fun k => (K2 K k : ℂ) * a k by funext k; simp, map_neg] at h
    funext k
    have := congrFun h k
    simp only [Pi.neg_apply] at this
    linear_combination this
  let z : (ι → ℂ) → ι → ℂ := fun a k => if K2 K k = 0 then a k else 0
  let q : (ι → ℂ) → ι → ℂ := fun a k => if K2 K k = 0 then 0 else a k / (K2 K k : ℂ)
  have hz : ∀ a k, K2 K k ≠ 0 → σ (z a) k = 0 := fun a k hk => by
    have h := congrFun (hL (z a)) k
    have h0 : (fun k => (K2 K k : ℂ) * z a k) = 0 := by
      funext k; by_cases h : K2 K k = 0 <;> simp [z, h]
    rw [h0, map_zero] at h
    simpa [hk] using h.symm
  have hq : ∀ a, σ (fun k => (K2 K k : ℂ) * q a k) = fun k => (K2 K k : ℂ) * σ (q a) k := fun a => hL (q a)
  have hqq : ∀ a k, K2 K k = 0 → σ (q a) k = 0 := fun a k hk => by
    have h1 : q a = fun k => (K2 K k : ℂ) * q (q a) k := by
      funext k
      by_cases h : K2 K k = 0
      · simp [q, h]
      · simp only [q, h, if_false]; field_simp
    rw [h1, hq]
    simp [hk]
  have hs : ∀ a, a = z a + fun k => (K2 K k : ℂ) * q a k := fun a => by
    funext k
    by_cases h : K2 K k = 0
    · simp [z, q, h]
    · have h' : (K2 K k : ℂ) ≠ 0 := by exact_mod_cast h
      simp only [Pi.add_apply, z, q, h, if_false]; field_simp; simp
  have hi : Periodic.inv2 K a = z a + q a := by
    funext k
    by_cases h : K2 K k = 0 <;> simp [Periodic.inv2, z, q, h]
  rw [hi, map_add]
  have ha : σ a = σ (z a) + fun k => (K2 K k : ℂ) * σ (q a) k := by
    conv_lhs => rw [hs a]
    rw [map_add, hq]
  funext k
  by_cases h : K2 K k = 0
  · simp [Periodic.inv2, ha, h, hqq a k h]
  · have h' : (K2 K k : ℂ) ≠ 0 := by exact_mod_cast h
    simp [Periodic.inv2, ha, h, hz a k h]

end SpectralDNS.Periodic

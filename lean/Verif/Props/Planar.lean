import Verif.Props.Bq

/-!
# C14: the two-dimensional solver is the restriction of the three-dimensional one
-/

namespace SpectralDNS.Periodic

open Complex

variable {ι₂ ι₃ X₂ X₃ : Type*}

/-- Coefficients of a two-dimensional field seen as those of a three-dimensional field not depending on the third
coordinate.  `src κ` says where the coefficient of mode `κ` is found in the two-dimensional array: nowhere (it is zero),
directly, or at the opposite mode (complex conjugate; the real transform halves the last axis, which is y in two dimensions and
z in three). -/
noncomputable def lift (src : ι₃ → Option (ι₂ × Bool)) (a : ι₂ → ℂ) (κ : ι₃) : ℂ :=
  match src κ with
  | none => 0
  | some (k, false) => a k
  | some (k, true) => (starRingEnd ℂ) (a k)

/-- A planar velocity: two components not depending on z, third component zero. -/
noncomputable def liftV (src : ι₃ → Option (ι₂ × Bool)) (u : SArr 2 ι₂) : SArr 3 ι₃ := ![lift src (u 0), lift src (u 1), 0]

/-- How the two discretisations must be related: `p` forgets the third coordinate of a grid point. -/
structure PlanarPair (c₂ : Ctx 2 ι₂ X₂) (c₃ : Ctx 3 ι₃ X₃) (p : X₃ → X₂) (src : ι₃ → Option (ι₂ × Bool)) : Prop where
  kz : ∀ κ k b, src κ = some (k, b) → c₃.K 2 κ = 0
  ksq : ∀ κ k b, src κ = some (k, b) → K2 c₃.K κ = K2 c₂.K k
  kxy : ∀ κ k b, src κ = some (k, b) → keeps c₃.mask κ = true →
    ∀ i : Fin 2, c₃.K i.castSucc κ = if b then -c₂.K i k else c₂.K i k
  mask : ∀ κ k b, src κ = some (k, b) → keeps c₃.mask κ = keeps c₂.mask k
  forward : ∀ f κ, keeps c₃.mask κ = true → c₃.Tp.forward (fun x => f (p x)) κ = lift src (c₂.Tp.forward f) κ
  backward : ∀ a : ι₂ → ℂ, (∀ k, keeps c₂.mask k = false → a k = 0) → c₃.Tp.backward (lift src a) = fun x => c₂.Tp.backward a (p x)
  zero : c₃.Tp.backward (fun _ => 0) = fun _ => 0
  zero' : c₂.Tp.forward (fun _ => 0) = fun _ => 0

theorem lift_zero (src : ι₃ → Option (ι₂ × Bool)) : lift src (fun _ => 0) = fun _ => 0 := by
  funext κ
  unfold lift
  split <;> simp

/-- C14.  For planar velocities (zero at the masked modes) the 3D Vortex right-hand side is the 2D one in the first two
components and zero in the third. -/
theorem C14_rhs (c₂ : Ctx 2 ι₂ X₂) (c₃ : Ctx 3 ι₃ X₃) (p : X₃ → X₂) (src : ι₃ → Option (ι₂ × Bool))
    (H : PlanarPair c₂ c₃ p src) (hnu : c₃.nu = c₂.nu) (hS : c₃.Source = liftV src c₂.Source)
    (w₂ : ι₂ → ℂ) (w₃ : Scratch 3 ι₃ X₃) (r : SArr 2 ι₂) (r' : SArr 3 ι₃) (u : SArr 2 ι₂)
    (hu : ∀ k, keeps c₂.mask k = false → ∀ i, u i k = 0) :
    rhsNS c₃ (fun r u => convVortex w₃ r u c₃.Tp c₃.K) r' (liftV src u) =
      liftV src (rhsNS c₂ (fun r u => conv2DVortex w₂ r u c₂.Tp c₂.K) r u) := by
  set vort : ι₂ → ℂ := fun k => I * (c₂.K 0 k * u 1 k - c₂.K 1 k * u 0 k) with hvort
  have hvz : ∀ k, keeps c₂.mask k = false → vort k = 0 := by
    intro k hk
    simp [hvort, hu k hk]
  -- the curl of the planar velocity
  have hc0 : Spec.curl c₃.K (liftV src u) 0 = fun _ => 0 := by
    funext κ
    rcases hs : src κ with _ | ⟨k, b⟩
    · simp [Spec.curl, Spec.cross, liftV, lift, hs]
    · simp [Spec.curl, Spec.cross, liftV, H.kz κ k b hs]
  have hc1 : Spec.curl c₃.K (liftV src u) 1 = fun _ => 0 := by
    funext κ
    have e1 : (1 : Fin 3) + 1 = 2 := rfl
    have e2 : (1 : Fin 3) + 2 = 0 := rfl
    rcases hs : src κ with _ | ⟨k, b⟩
    · simp [Spec.curl, Spec.cross, liftV, lift, hs, e1, e2]
    · simp [Spec.curl, Spec.cross, liftV, H.kz κ k b hs, e1, e2]
  have hc2 : Spec.curl c₃.K (liftV src u) 2 = lift src vort := by
    funext κ
    have e1 : (2 : Fin 3) + 1 = 0 := rfl
    have e2 : (2 : Fin 3) + 2 = 1 := rfl
    rcases hs : src κ with _ | ⟨k, b⟩
    · simp [Spec.curl, Spec.cross, liftV, lift, hs, e1, e2]
    · by_cases hk : keeps c₃.mask κ = true
      · have k0 := H.kxy κ k b hs hk 0
        have k1 := H.kxy κ k b hs hk 1
        simp only [Fin.castSucc_zero, Fin.castSucc_one] at k0 k1
        cases b <;> simp [Spec.curl, Spec.cross, liftV, lift, hs, e1, e2, k0, k1, hvort]
        ring
      · rw [H.mask κ k b hs] at hk
        have hk' : keeps c₂.mask k = false := by simpa using hk
        have z0 := hu k hk' 0
        have z1 := hu k hk' 1
        cases b <;> simp [Spec.curl, Spec.cross, liftV, lift, hs, e1, e2, z0, z1, hvort]
  have hb : ∀ i, c₃.Tp.backward (liftV src u i) = ![fun x => c₂.Tp.backward (u 0) (p x), fun x => c₂.Tp.backward (u 1) (p x), fun _ => 0] i := by
    intro i
    fin_cases i
    · exact H.backward _ fun k hk => hu k hk 0
    · exact H.backward _ fun k hk => hu k hk 1
    · exact H.zero
  have hw : c₃.Tp.backward (lift src vort) = fun x => c₂.Tp.backward vort (p x) := H.backward _ hvz
  -- the convective term
  have hconv : ∀ κ, keeps c₃.mask κ = true → ∀ i, convVortex w₃ r' (liftV src u) c₃.Tp c₃.K i κ =
      liftV src (Spec.lamb2 c₂.Tp.forward c₂.Tp.backward c₂.K u) i κ := by
    intro κ hκ i
    rw [convVortex_eq]
    fin_cases i
    · have e1 : (0 : Fin 3) + 1 = 1 := rfl
      have e2 : (0 : Fin 3) + 2 = 2 := rfl
      have hf := H.forward (fun y => c₂.Tp.backward (u 1) y * c₂.Tp.backward vort y) κ hκ
      simp only [Spec.lamb, Spec.cross, Fin.zero_eta, e1, e2, hc1, hc2, hb, hw, H.zero]
      simpa [liftV, Spec.lamb2] using hf
    · have e1 : (1 : Fin 3) + 1 = 2 := rfl
      have e2 : (1 : Fin 3) + 2 = 0 := rfl
      have hf := H.forward (fun y => -(c₂.Tp.backward (u 0) y * c₂.Tp.backward vort y)) κ hκ
      simp only [Spec.lamb, Spec.cross, Fin.mk_one, e1, e2, hc0, hc2, hb, hw, H.zero]
      simpa [liftV, Spec.lamb2] using hf
    · have e1 : (2 : Fin 3) + 1 = 0 := rfl
      have e2 : (2 : Fin 3) + 2 = 1 := rfl
      have hf := H.forward (fun _ => 0) κ hκ
      rw [H.zero', lift_zero] at hf
      simp only [Spec.lamb, Spec.cross, Fin.reduceFinMk, e1, e2, hc0, hc1, hb, H.zero]
      simpa [liftV] using hf
  -- assemble
  funext i κ
  simp only [rhsNS, ComputeRHS, add_pressure_diffusion, conv2D_lamb2, maskNyquist_keeps]
  have hmask : ∀ j, (if keeps c₃.mask κ = true then convVortex w₃ r' (liftV src u) c₃.Tp c₃.K j κ else 0) =
      if keeps c₃.mask κ = true then liftV src (Spec.lamb2 c₂.Tp.forward c₂.Tp.backward c₂.K u) j κ else 0 := by
    intro j
    by_cases hk : keeps c₃.mask κ = true
    · rw [if_pos hk, if_pos hk, hconv κ hk j]
    · rw [if_neg hk, if_neg hk]
  simp only [hmask, hnu, hS, Fin.sum_univ_three]
  generalize hL : Spec.lamb2 c₂.Tp.forward c₂.Tp.backward c₂.K u = v
  rcases hs : src κ with _ | ⟨k, b⟩
  · fin_cases i <;> simp [liftV, lift, hs]
  · have h2 := H.ksq κ k b hs
    have hz := H.kz κ k b hs
    have hm := H.mask κ k b hs
    by_cases hk : keeps c₃.mask κ = true
    · have hk' : keeps c₂.mask k = true := by rw [← hm]; exact hk
      have k0 := H.kxy κ k b hs hk 0
      have k1 := H.kxy κ k b hs hk 1
      simp only [Fin.castSucc_zero, Fin.castSucc_one] at k0 k1
      have q0 : K_over_K2 c₃.K 0 κ = if b then -K_over_K2 c₂.K 0 k else K_over_K2 c₂.K 0 k := by
        unfold K_over_K2
        rw [h2, k0]
        cases b <;> simp [neg_div]
      have q1 : K_over_K2 c₃.K 1 κ = if b then -K_over_K2 c₂.K 1 k else K_over_K2 c₂.K 1 k := by
        unfold K_over_K2
        rw [h2, k1]
        cases b <;> simp [neg_div]
      cases b <;> fin_cases i <;> simp [liftV, lift, hs, hk, hk', h2, hz, k0, k1, q0, q1, Fin.sum_univ_two]
      all_goals ring
    · have hk' : ¬ keeps c₂.mask k = true := by rw [← hm]; exact hk
      cases b <;> fin_cases i <;> simp [liftV, lift, hs, hk, hk', h2, hz]

/-- `liftV` as a linear map. -/
noncomputable def liftMap (src : ι₃ → Option (ι₂ × Bool)) : SArr 2 ι₂ →ₗ[ℝ] SArr 3 ι₃ where
  toFun := liftV src
  map_add' u v := by
    funext i κ
    rcases hs : src κ with _ | ⟨k, _ | _⟩ <;> fin_cases i <;> simp [liftV, lift, hs]
  map_smul' a u := by
    funext i κ
    rcases hs : src κ with _ | ⟨k, _ | _⟩ <;> fin_cases i <;> simp [liftV, lift, hs]

/-- C14.  The two solvers started with the same planar velocity follow the same flow for ever, with every integrator. -/
theorem C14_same_flow (c₂ : Ctx 2 ι₂ X₂) (c₃ : Ctx 3 ι₃ X₃) (p : X₃ → X₂) (src : ι₃ → Option (ι₂ × Bool))
    (H : PlanarPair c₂ c₃ p src) (hnu : c₃.nu = c₂.nu) (hS : c₃.Source = liftV src c₂.Source)
    (hS0 : ∀ k, keeps c₂.mask k = false → ∀ i, c₂.Source i k = 0) (w₂ : ι₂ → ℂ) (w₃ : Scratch 3 ι₃ X₃)
    (est : SArr 2 ι₂ → SArr 2 ι₂ → SArr 2 ι₂ → PyF) (est' : SArr 3 ι₃ → SArr 3 ι₃ → SArr 3 ι₃ → PyF) (m : Method)
    (hest : m = .BS5 true → ∀ a b d, est' (liftV src a) (liftV src b) (liftV src d) = est a b d) (fuel : ℕ) (ds : List ℝ)
    (tstep : ℕ) (rhs u : SArr 2 ι₂) (rhs' : SArr 3 ι₃) (hu : ∀ k, keeps c₂.mask k = false → ∀ i, u i k = 0)
    (r : Closure (SArr 2 ι₂))
    (h : runSteps (rhsNS c₂ fun r u => conv2DVortex w₂ r u c₂.Tp c₂.K) est fuel m tstep ds (getintegrator rhs u) = some r) :
    ∃ r', runSteps (rhsNS c₃ fun r u => convVortex w₃ r u c₃.Tp c₃.K) est' fuel m tstep ds (getintegrator rhs' (liftV src u)) =
      some r' ∧ r'.u0 = liftV src r.u0 := by
  let W := Spec.vanishing 2 fun k => keeps c₂.mask k = false
  have Hi : Intertwines (liftMap src) (W : Set (SArr 2 ι₂)) W (rhsNS c₂ fun r u => conv2DVortex w₂ r u c₂.Tp c₂.K)
      (rhsNS c₃ fun r u => convVortex w₃ r u c₃.Tp c₃.K) := by
    refine ⟨fun _ ha _ hb => W.add_mem ha hb, fun r u hu k hk i => ?_, fun r r' u hu =>
      C14_rhs c₂ c₃ p src H hnu hS w₂ w₃ r r' u hu⟩
    have h1 : u i k = 0 := hu k hk i
    simp [rhsNS, ComputeRHS, add_pressure_diffusion, maskNyquist_keeps, hk, h1, hS0 k hk i]
  exact run_map Hi est est' m (fun hm a b _ d _ => hest hm a b d) fuel ds tstep rhs u rhs' hu (fun _ => Or.inr hu) r h

/-! ### The arrays of the solvers -/

theorem exists_mode {n : ℕ} (N : Fin (n + 1) → ℕ) (v : Fin (n + 1) → ℤ) (hv : ∀ i, -(N i : ℤ) < 2 * v i ∧ 2 * v i < N i)
    (hl : 0 ≤ v (Fin.last n)) : ∃ k : RModes N, ∀ i, waves N i k = v i := by
  have hex : ∀ i, ∃ j : Fin (rdim N i), ∀ k : RModes N, k i = j → waves N i k = v i := by
    intro i
    have hi' := hv i
    by_cases hi : i = Fin.last n
    · subst hi
      refine ⟨⟨(v (Fin.last n)).toNat, by simp only [rdim, if_true]; omega⟩, fun k hk => ?_⟩
      unfold waves
      rw [if_pos rfl, hk]
      simp [hl]
    · have hd : rdim N i = N i := by simp [rdim, hi]
      by_cases hn : 0 ≤ v i
      · refine ⟨⟨(v i).toNat, by omega⟩, fun k hk => ?_⟩
        have e : ((k i : Fin (rdim N i)) : ℕ) = (v i).toNat := by rw [hk]
        unfold waves
        rw [if_neg hi, e, if_pos (by omega)]
        omega
      · refine ⟨⟨(v i + N i).toNat, by omega⟩, fun k hk => ?_⟩
        have e : ((k i : Fin (rdim N i)) : ℕ) = (v i + N i).toNat := by rw [hk]
        unfold waves
        rw [if_neg hi, e, if_neg (by omega)]
        omega
  choose f hf using hex
  exact ⟨f, fun i => hf i f rfl⟩

section
variable {n : ℕ} (N : Fin (n + 2) → ℕ)

/-- Grid sizes without the last direction. -/
abbrev drop {α : Type*} (N : Fin (n + 2) → α) : Fin (n + 1) → α := fun i => N i.castSucc

open Classical in
/-- Where the array of the lower-dimensional real transform stores a mode. -/
noncomputable def planeSrc (κ : RModes N) : Option (RModes (drop N) × Bool) :=
  if waves N (Fin.last (n + 1)) κ ≠ 0 then none
  else if h : ∃ k : RModes (drop N), ∀ i, waves (drop N) i k = waves N i.castSucc κ then some (h.choose, false)
  else if h : ∃ k : RModes (drop N), ∀ i, waves (drop N) i k = -waves N i.castSucc κ then some (h.choose, true)
  else none

theorem planeSrc_spec {N : Fin (n + 2) → ℕ} {κ : RModes N} {k : RModes (drop N)} {b : Bool} (h : planeSrc N κ = some (k, b)) :
    waves N (Fin.last (n + 1)) κ = 0 ∧ (∀ i, waves (drop N) i k = if b then -waves N i.castSucc κ else waves N i.castSucc κ) ∧
      (b = true → ¬ ∃ k : RModes (drop N), ∀ i, waves (drop N) i k = waves N i.castSucc κ) := by
  unfold planeSrc at h
  by_cases h0 : waves N (Fin.last (n + 1)) κ ≠ 0
  · rw [if_pos h0] at h; exact absurd h (by simp)
  rw [if_neg h0] at h
  refine ⟨not_not.1 h0, ?_⟩
  by_cases h1 : ∃ k : RModes (drop N), ∀ i, waves (drop N) i k = waves N i.castSucc κ
  · rw [dif_pos h1] at h
    obtain ⟨rfl, rfl⟩ : h1.choose = k ∧ false = b := by simpa using h
    exact ⟨by simpa using h1.choose_spec, by simp⟩
  · rw [dif_neg h1] at h
    by_cases h2 : ∃ k : RModes (drop N), ∀ i, waves (drop N) i k = -waves N i.castSucc κ
    · rw [dif_pos h2] at h
      obtain ⟨rfl, rfl⟩ : h2.choose = k ∧ true = b := by simpa using h
      exact ⟨by simpa using h2.choose_spec, fun _ => h1⟩
    · rw [dif_neg h2] at h; exact absurd h (by simp)

theorem planeSrc_direct {N : Fin (n + 2) → ℕ} {κ : RModes N} {k : RModes (drop N)} (h0 : waves N (Fin.last (n + 1)) κ = 0)
    (h : ∀ i, waves (drop N) i k = waves N i.castSucc κ) : planeSrc N κ = some (k, false) := by
  have h1 : ∃ k : RModes (drop N), ∀ i, waves (drop N) i k = waves N i.castSucc κ := ⟨k, h⟩
  unfold planeSrc
  rw [if_neg (not_not.2 h0), dif_pos h1]
  have : h1.choose = k := waves_inj _ _ _ fun i => by rw [h1.choose_spec i, h i]
  rw [this]

theorem planeSrc_conj {N : Fin (n + 2) → ℕ} {κ : RModes N} {k : RModes (drop N)} (h0 : waves N (Fin.last (n + 1)) κ = 0)
    (h : ∀ i, waves (drop N) i k = -waves N i.castSucc κ)
    (hn : ¬ ∃ k : RModes (drop N), ∀ i, waves (drop N) i k = waves N i.castSucc κ) : planeSrc N κ = some (k, true) := by
  have h1 : ∃ k : RModes (drop N), ∀ i, waves (drop N) i k = -waves N i.castSucc κ := ⟨k, h⟩
  unfold planeSrc
  rw [if_neg (not_not.2 h0), dif_neg hn, dif_pos h1]
  have : h1.choose = k := waves_inj _ _ _ fun i => by rw [h1.choose_spec i, h i]
  rw [this]

theorem planeSrc_mask (hN : ∀ i, 0 < N i) {κ : RModes N} {k : RModes (drop N)} {b : Bool} (h : planeSrc N κ = some (k, b)) :
    nyquistMask N κ = nyquistMask (drop N) k := by
  obtain ⟨h0, h1, -⟩ := planeSrc_spec h
  rw [Bool.eq_iff_iff, nyquistMask_iff, nyquistMask_iff, Fin.forall_fin_succ']
  have hl := hN (Fin.last (n + 1))
  rw [h0]
  constructor
  · intro ⟨h2, _⟩ i
    have := h2 i
    rw [h1 i]
    change -(N i.castSucc : ℤ) < _ ∧ _ < (N i.castSucc : ℤ)
    cases b <;> simp only [Bool.false_eq_true, if_false, if_true] <;> omega
  · intro h2
    refine ⟨fun i => ?_, by omega⟩
    have h3 := h2 i
    rw [h1 i] at h3
    change -(N i.castSucc : ℤ) < _ ∧ _ < (N i.castSucc : ℤ) at h3
    cases b <;> simp only [Bool.false_eq_true, if_false, if_true] at h3 <;> omega

theorem planeSrc_isSome {κ : RModes N} (hm : nyquistMask N κ = true) (h0 : waves N (Fin.last (n + 1)) κ = 0) :
    ∃ k b, planeSrc N κ = some (k, b) := by
  rw [nyquistMask_iff] at hm
  by_cases h1 : ∃ k : RModes (drop N), ∀ i, waves (drop N) i k = waves N i.castSucc κ
  · obtain ⟨k, hk⟩ := h1
    exact ⟨k, false, planeSrc_direct h0 hk⟩
  · have hneg : waves N (Fin.last n).castSucc κ < 0 := by
      by_contra hc
      exact h1 (exists_mode (drop N) (fun i => waves N i.castSucc κ) (fun i => hm i.castSucc) (not_lt.1 hc))
    obtain ⟨k, hk⟩ := exists_mode (drop N) (fun i => -waves N i.castSucc κ) (fun i => by have := hm i.castSucc; simp only [drop]; omega)
      (by omega)
    exact ⟨k, true, planeSrc_conj h0 hk h1⟩

/-- Sum over a grid, last direction separated. -/
theorem sum_grid (M : Fin (n + 2) → ℕ) (f : Grid M → ℂ) :
    ∑ x, f x = ∑ y : Grid (drop M), ∑ z : Fin (M (Fin.last (n + 1))), f (Fin.snoc (α := fun i => Fin (M i)) y z) := by
  rw [← (Fin.snocEquiv fun i => Fin (M i)).sum_comp, Fintype.sum_prod_type, Finset.sum_comm]
  rfl

theorem kernel_snoc {ι : Type*} (wv : Fin (n + 2) → ι → ℤ) (M : Fin (n + 2) → ℕ) (k : ι) (y : Grid (drop M)) (z : Fin (M (Fin.last (n + 1)))) :
    kernel wv M k (Fin.snoc (α := fun i => Fin (M i)) y z) = kernel (fun i => wv i.castSucc) (drop M) k y *
      Complex.exp (2 * Real.pi * I * ((wv (Fin.last (n + 1)) k : ℂ) * ((z : ℕ) : ℂ) / (M (Fin.last (n + 1)) : ℂ))) := by
  unfold kernel
  rw [← Complex.exp_add, ← mul_add, Fin.sum_univ_castSucc]
  simp only [Fin.snoc_castSucc, Fin.snoc_last]

theorem kernel_congr {ι κ : Type*} {d : ℕ} (wv : Fin d → ι → ℤ) (wv' : Fin d → κ → ℤ) (M : Fin d → ℕ) (k : ι) (l : κ)
    (h : ∀ i, wv i k = wv' i l) (x : Grid M) : kernel wv M k x = kernel wv' M l x := by
  unfold kernel
  simp only [h]

theorem kernel_neg {ι κ : Type*} {d : ℕ} (wv : Fin d → ι → ℤ) (wv' : Fin d → κ → ℤ) (M : Fin d → ℕ) (k : ι) (l : κ)
    (h : ∀ i, wv i k = -wv' i l) (x : Grid M) : kernel wv M k x = (starRingEnd ℂ) (kernel wv' M l x) := by
  rw [conj_kernel]
  unfold kernel
  simp only [h]

theorem plane_forward (M : Fin (n + 2) → ℕ) (hN : ∀ i, 0 < N i) (hNM : ∀ i, N i ≤ M i) (f : Grid (drop M) → ℝ) (κ : RModes N)
    (hm : nyquistMask N κ = true) :
    (rspace N M).forward (fun x => f (Fin.init x)) κ = lift (planeSrc N) ((rspace (drop N) (drop M)).forward f) κ := by
  have hMl : 0 < M (Fin.last (n + 1)) := (hN _).trans_le (hNM _)
  have hMl' : (M (Fin.last (n + 1)) : ℂ) ≠ 0 := by exact_mod_cast hMl.ne'
  have hcard : (Fintype.card (Grid M) : ℂ) = Fintype.card (Grid (drop M)) * M (Fin.last (n + 1)) := by
    have := Fin.prod_univ_castSucc fun i => (M i : ℂ)
    simpa [Fintype.card_pi] using this
  have h1 : ∀ (y : Grid (drop M)) (z : Fin (M (Fin.last (n + 1)))), ((f (Fin.init (Fin.snoc (α := fun i => Fin (M i)) y z)) : ℝ) : ℂ) *
      (starRingEnd ℂ) (kernel (waves N) M κ (Fin.snoc (α := fun i => Fin (M i)) y z)) =
      (f y : ℂ) * (starRingEnd ℂ) (kernel (fun i => waves N i.castSucc) (drop M) κ y) *
        Complex.exp (2 * Real.pi * I * (((-waves N (Fin.last (n + 1)) κ : ℤ) : ℂ) * ((z : ℕ) : ℂ) / (M (Fin.last (n + 1)) : ℂ))) := by
    intro y z
    rw [Fin.init_snoc, kernel_snoc, map_mul, ← Complex.exp_conj]
    simp only [map_mul, map_div₀, conj_I, conj_ofReal, map_ofNat, map_intCast, map_natCast, Int.cast_neg]
    rw [← mul_assoc]
    congr 2
    ring
  simp only [rspace, dft]
  rw [sum_grid]
  simp only [h1, ← Finset.mul_sum]
  rw [sum_exp _ hMl]
  by_cases h0 : waves N (Fin.last (n + 1)) κ = 0
  · rw [h0, neg_zero, if_pos (dvd_zero _), ← Finset.sum_mul, hcard]
    obtain ⟨k, b, hs⟩ := planeSrc_isSome N hm h0
    obtain ⟨-, hw, -⟩ := planeSrc_spec hs
    have hk : ∀ y, kernel (fun i => waves N i.castSucc) (drop M) κ y =
        if b then (starRingEnd ℂ) (kernel (waves (drop N)) (drop M) k y) else kernel (waves (drop N)) (drop M) k y := by
      intro y
      cases b
      · simp only [Bool.false_eq_true, if_false] at hw ⊢
        exact kernel_congr _ _ _ _ _ (fun i => (hw i).symm) y
      · simp only [if_true] at hw ⊢
        exact kernel_neg _ _ _ _ _ (fun i => by rw [hw i, neg_neg]) y
    simp only [lift, hs, hk]
    cases b
    · simp only [Bool.false_eq_true, if_false]
      field_simp
    · simp only [if_true, map_mul, map_sum, map_div₀, map_one, map_natCast, conj_ofReal]
      field_simp
  · have hnd : ¬ ((M (Fin.last (n + 1)) : ℤ) ∣ -waves N (Fin.last (n + 1)) κ) := by
      rw [dvd_neg]
      intro hd
      have h2 := waves_bounds N κ (Fin.last (n + 1))
      have h3 := waves_last_nonneg N κ
      have h4 := Int.le_of_dvd (by omega) hd
      have h5 := hNM (Fin.last (n + 1))
      omega
    rw [if_neg hnd]
    have hs : planeSrc N κ = none := by unfold planeSrc; rw [if_pos h0]
    simp [lift, hs]

open Classical in
theorem plane_backward (M : Fin (n + 2) → ℕ) (hN : ∀ i, 0 < N i) (a : RModes (drop N) → ℂ)
    (ha : ∀ k, nyquistMask (drop N) k = false → a k = 0) (x : Grid M) :
    (rspace N M).backward (lift (planeSrc N) a) x = (rspace (drop N) (drop M)).backward a (Fin.init x) := by
  obtain ⟨y, z, rfl⟩ : ∃ y z, x = Fin.snoc (α := fun i => Fin (M i)) y z := ⟨_, _, (Fin.snoc_init_self x).symm⟩
  rw [Fin.init_snoc]
  simp only [rspace, dft, re_sum]
  set T : RModes (drop N) → ℝ := fun k => (a k * kernel (waves (drop N)) (drop M) k y).re with hT
  have h1 : ∀ κ : RModes N, ((rweight N κ : ℂ) * lift (planeSrc N) a κ * kernel (waves N) M κ (Fin.snoc (α := fun i => Fin (M i)) y z)).re =
      ∑ k, ((if planeSrc N κ = some (k, false) then T k else 0) + if planeSrc N κ = some (k, true) then T k else 0) := by
    intro κ
    rcases hs : planeSrc N κ with _ | ⟨k, b⟩
    · simp [lift, hs]
    · obtain ⟨h0, hw, -⟩ := planeSrc_spec hs
      rw [kernel_snoc, h0]
      have hr : rweight N κ = 1 := by simp [rweight, h0]
      simp only [Int.cast_zero, zero_mul, zero_div, mul_zero, Complex.exp_zero, mul_one, hr, lift, hs, ofReal_one, one_mul]
      cases b
      · have hk := kernel_congr (fun i => waves N i.castSucc) (waves (drop N)) (drop M) κ k (fun i => by rw [hw i]; simp) y
        simp only [hk]
        rw [Finset.sum_eq_single k]
        · simp [hT]
        · intro l _ hl
          simp [hl.symm]
        · simp
      · have hk := kernel_neg (fun i => waves N i.castSucc) (waves (drop N)) (drop M) κ k (fun i => by rw [hw i]; simp) y
        simp only [hk]
        rw [Finset.sum_eq_single k]
        · rw [← map_mul, conj_re]
          simp [hT]
        · intro l _ hl
          simp [hl.symm]
        · simp
  rw [Finset.sum_congr rfl fun κ _ => h1 κ, Finset.sum_comm]
  refine Finset.sum_congr rfl fun k _ => ?_
  by_cases hm : nyquistMask (drop N) k = true
  swap
  · have := ha k (by simpa using hm)
    simp [hT, this]
  have hm' := (nyquistMask_iff _ _).1 hm
  have hl := hN (Fin.last (n + 1))
  rw [Finset.sum_add_distrib]
  -- the direct mode
  obtain ⟨κ, hκ⟩ := exists_mode N (Fin.snoc (α := fun _ => ℤ) (fun i => waves (drop N) i k) 0) (fun i => by
    refine Fin.lastCases ?_ (fun j => ?_) i
    · simp; omega
    · simpa using hm' j) (by simp)
  have hκl : waves N (Fin.last (n + 1)) κ = 0 := by rw [hκ]; simp
  have hκi : ∀ i, waves (drop N) i k = waves N (Fin.castSucc i) κ := by intro i; rw [hκ]; simp
  have hdir : ∑ κ, (if planeSrc N κ = some (k, false) then T k else 0) = T k := by
    rw [Finset.sum_eq_single κ]
    · rw [if_pos (planeSrc_direct hκl hκi)]
    · intro κ' _ hne
      rw [if_neg]
      intro hs
      apply hne
      obtain ⟨g0, gw, -⟩ := planeSrc_spec hs
      refine waves_inj N _ _ fun i => ?_
      refine Fin.lastCases ?_ (fun j => ?_) i
      · rw [g0, hκl]
      · rw [← hκi j, gw j]; simp
    · simp
  rw [hdir]
  by_cases hlast : waves (drop N) (Fin.last n) k = 0
  · have hw2 : rweight (drop N) k = 1 := by simp [rweight, hlast]
    have hconj : ∑ κ, (if planeSrc N κ = some (k, true) then T k else 0) = 0 := by
      refine Finset.sum_eq_zero fun κ' _ => ?_
      rw [if_neg]
      intro hs
      obtain ⟨g0, gw, gn⟩ := planeSrc_spec hs
      obtain ⟨k', hk'⟩ := exists_neg (drop N) k hm hlast
      exact gn rfl ⟨k', fun i => by rw [hk' i, gw i]; simp⟩
    rw [hconj, hw2]
    simp [hT]
  · have hpos := waves_last_nonneg (drop N) k
    have hw2 : rweight (drop N) k = 2 := by
      unfold rweight
      rw [if_neg]
      have := hm' (Fin.last n)
      omega
    obtain ⟨κc, hκc⟩ := exists_mode N (Fin.snoc (α := fun _ => ℤ) (fun i => -waves (drop N) i k) 0) (fun i => by
      refine Fin.lastCases ?_ (fun j => ?_) i
      · simp; omega
      · have := hm' j
        simp only [Fin.snoc_castSucc, drop] at this ⊢
        omega) (by simp)
    have hcl : waves N (Fin.last (n + 1)) κc = 0 := by rw [hκc]; simp
    have hci : ∀ i, waves (drop N) i k = -waves N (Fin.castSucc i) κc := by intro i; rw [hκc]; simp
    have hnn : ¬ ∃ k' : RModes (drop N), ∀ i, waves (drop N) i k' = waves N i.castSucc κc := by
      rintro ⟨k', hk'⟩
      have e1 := waves_last_nonneg (drop N) k'
      have e2 := hk' (Fin.last n)
      have e3 := hci (Fin.last n)
      omega
    have hconj : ∑ κ, (if planeSrc N κ = some (k, true) then T k else 0) = T k := by
      rw [Finset.sum_eq_single κc]
      · rw [if_pos (planeSrc_conj hcl hci hnn)]
      · intro κ' _ hne
        rw [if_neg]
        intro hs
        apply hne
        obtain ⟨g0, gw, -⟩ := planeSrc_spec hs
        refine waves_inj N _ _ fun i => ?_
        refine Fin.lastCases ?_ (fun j => ?_) i
        · rw [g0, hcl]
        · have e1 := gw j
          have e2 := hci j
          simp only [if_true] at e1
          omega
      · simp
    rw [hconj, hw2]
    simp only [hT]
    rw [mul_assoc, re_ofReal_mul]
    ring

end

/-- The discretisations of NS2D and NS on boxes with the same sides and sizes in the first two directions, with the Nyquist
mask, are related as C14 requires. -/
theorem planar_fft (N M : Fin 3 → ℕ) (hN : ∀ i, 0 < N i) (hNM : ∀ i, N i ≤ M i) (L : Fin 3 → ℝ) (nu : ℝ)
    (S₂ : SArr 2 (RModes (n := 1) (drop N))) (S₃ : SArr 3 (RModes N)) :
    PlanarPair (⟨rspace (drop N) (drop M), scaledWaves (drop N) (drop L), nu, some (nyquistMask (drop N)), S₂⟩)
      ⟨rspace N M, scaledWaves N L, nu, some (nyquistMask N), S₃⟩ Fin.init (planeSrc N) where
  kz κ k b h := by
    have := (planeSrc_spec h).1
    change scaledWaves N L (Fin.last 2) κ = 0
    simp only [scaledWaves]
    rw [this]
    simp
  ksq κ k b h := by
    obtain ⟨h0, hw, -⟩ := planeSrc_spec h
    simp only [K2]
    rw [Fin.sum_univ_castSucc]
    have e : scaledWaves N L (Fin.last 2) κ = 0 := by simp only [scaledWaves]; rw [h0]; simp
    rw [e, mul_zero, add_zero]
    refine Finset.sum_congr rfl fun i _ => ?_
    simp only [scaledWaves, hw i]
    cases b <;> simp
  kxy κ k b h _ i := by
    obtain ⟨h0, hw, -⟩ := planeSrc_spec h
    simp only [scaledWaves, hw i]
    cases b <;> simp
  mask κ k b h := planeSrc_mask N hN h
  forward f κ h := plane_forward N M hN hNM f κ h
  backward a ha := funext fun x => plane_backward N M hN a ha x
  zero := (dft_additive _ _).backward_zero
  zero' := (dft_additive _ _).forward_zero

/-- C14 for the transforms of the solvers: on every pair of grids with the same first two directions, NS started with the
planar extension of the NS2D velocity is the planar extension of the NS2D solution, for ever. -/
theorem C14_same_flow_fft (N M : Fin 3 → ℕ) (hN : ∀ i, 0 < N i) (hNM : ∀ i, N i ≤ M i) (L : Fin 3 → ℝ) (nu : ℝ)
    (w₂ : RModes (n := 1) (drop N) → ℂ) (w₃ : Scratch 3 (RModes N) (Grid M))
    (est : SArr 2 (RModes (n := 1) (drop N)) → SArr 2 (RModes (n := 1) (drop N)) → SArr 2 (RModes (n := 1) (drop N)) → PyF)
    (est' : SArr 3 (RModes N) → SArr 3 (RModes N) → SArr 3 (RModes N) → PyF) (m : Method) (hmeth : m ≠ .BS5 true)
    (fuel : ℕ) (ds : List ℝ) (tstep : ℕ) (rhs u : SArr 2 (RModes (n := 1) (drop N))) (rhs' : SArr 3 (RModes N))
    (hu : ∀ k, nyquistMask (n := 1) (drop N) k = false → ∀ i, u i k = 0) (r : Closure (SArr 2 (RModes (n := 1) (drop N))))
    (h : runSteps (rhsNS ⟨rspace (drop N) (drop M), scaledWaves (drop N) (drop L), nu, some (nyquistMask (drop N)), 0⟩
        fun r u => conv2DVortex w₂ r u (rspace (drop N) (drop M)) (scaledWaves (drop N) (drop L))) est fuel m tstep ds
        (getintegrator rhs u) = some r) :
    ∃ r', runSteps (rhsNS ⟨rspace N M, scaledWaves N L, nu, some (nyquistMask N), 0⟩
        fun r u => convVortex w₃ r u (rspace N M) (scaledWaves N L)) est' fuel m tstep ds
        (getintegrator rhs' (liftV (planeSrc N) u)) = some r' ∧ r'.u0 = liftV (planeSrc N) r.u0 := by
  refine C14_same_flow ⟨rspace (drop N) (drop M), scaledWaves (drop N) (drop L), nu, some (nyquistMask (drop N)), 0⟩
    ⟨rspace N M, scaledWaves N L, nu, some (nyquistMask N), 0⟩ Fin.init (planeSrc N) (planar_fft N M hN hNM L nu 0 0) rfl ?_ (fun _ _ _ => rfl) w₂ w₃ est est' m
    (fun h => absurd h hmeth) fuel ds tstep rhs u rhs' hu r h
  have := (liftMap (planeSrc N)).map_zero
  exact this.symm

/-- On odd grids nothing is masked: the hypothesis on `u` holds for every velocity. -/
example (k : RModes (n := 1) (drop (![3, 3, 3] : Fin 3 → ℕ))) : nyquistMask (drop (![3, 3, 3] : Fin 3 → ℕ)) k = true := by
  rw [nyquistMask_iff]
  intro i
  have := waves_bounds _ k i
  fin_cases i <;> simp [drop] at this ⊢ <;> omega

end SpectralDNS.Periodic

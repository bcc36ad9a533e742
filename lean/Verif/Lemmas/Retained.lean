import Verif.Model.DealiasDirect
import Verif.Spec.Retained
import Verif.Props.Symmetry
import Verif.Lemmas.Trig
import Verif.Lemmas.Leibniz

/-! The retained modes of the 2/3-rule, and the mesh which stores just these. -/

namespace SpectralDNS.Periodic

open Complex Spec Dealias

variable {n : ℕ} {N c : Fin (n + 1) → ℕ}

theorem waves_meshOf (c : Fin (n + 1) → ℕ) (k : RModes (meshOf c)) (i : Fin (n + 1)) : |waves (meshOf c) i k| ≤ (c i : ℤ) := by
  have := waves_bounds (meshOf c) k i
  simp only [meshOf] at this
  rw [abs_le]
  constructor <;> push_cast at this <;> omega

/-- Every mode of the small mesh is stored in the large one. -/
theorem exists_up (h : ∀ i, 2 * c i < N i) (k : RModes (meshOf c)) : ∃ l : RModes N, ∀ i, waves N i l = waves (meshOf c) i k := by
  obtain ⟨l, hl⟩ := exists_trig_mode N (fun i => waves (meshOf c) i k) (fun i => by
    have h1 := waves_meshOf c k i
    have h2 := h i
    have : (2 * c i : ℤ) < N i := by exact_mod_cast h2
    linarith) (waves_last_nonneg _ k)
  exact ⟨l, fun i => congrFun hl i⟩

/-- Every retained mode is stored in the small mesh. -/
theorem exists_down (k : RModes N) (hk : ∀ i, |waves N i k| ≤ (c i : ℤ)) : ∃ l : RModes (meshOf c), ∀ i, waves (meshOf c) i l = waves N i k := by
  obtain ⟨l, hl⟩ := exists_trig_mode (meshOf c) (fun i => waves N i k) (fun i => by
    have h1 := hk i
    simp only [meshOf]
    push_cast
    linarith) (waves_last_nonneg _ k)
  exact ⟨l, fun i => congrFun hl i⟩

/-- The place of a mode of the small mesh in the large one. -/
noncomputable def up (h : ∀ i, 2 * c i < N i) (k : RModes (meshOf c)) : RModes N := (exists_up h k).choose

theorem waves_up (h : ∀ i, 2 * c i < N i) (k : RModes (meshOf c)) (i : Fin (n + 1)) : waves N i (up h k) = waves (meshOf c) i k := (exists_up h k).choose_spec i

theorem up_injective (h : ∀ i, 2 * c i < N i) : Function.Injective (up h) := fun k l e =>
  waves_inj _ _ _ fun i => by rw [← waves_up h, ← waves_up h, e]

theorem up_of (h : ∀ i, 2 * c i < N i) {k : RModes N} (hk : ∀ i, |waves N i k| ≤ (c i : ℤ)) : ∃ l, up h l = k := by
  obtain ⟨l, hl⟩ := exists_down k hk
  exact ⟨l, waves_inj _ _ _ fun i => by rw [waves_up, hl]⟩

theorem rweight_up (h : ∀ i, 2 * c i < N i) (k : RModes (meshOf c)) : rweight N (up h k) = rweight (meshOf c) k := by
  have h1 := abs_le.1 (waves_meshOf c k (Fin.last n))
  have h2 := h (Fin.last n)
  rw [rweight, rweight, waves_up]
  have e1 : ¬2 * waves (meshOf c) (Fin.last n) k = N (Fin.last n) := by omega
  have e2 : ¬2 * waves (meshOf c) (Fin.last n) k = meshOf c (Fin.last n) := by simp only [meshOf]; push_cast; omega
  simp only [e1, e2]

/-- The retained coefficients. -/
noncomputable def low (h : ∀ i, 2 * c i < N i) : (RModes N → ℂ) →ₗ[ℝ] (RModes (meshOf c) → ℂ) where
  toFun a k := a (up h k)
  map_add' _ _ := rfl
  map_smul' _ _ := rfl

theorem sameModes_iff (h : ∀ i, 2 * c i < N i) (a : RModes N → ℂ) (a' : RModes (meshOf c) → ℂ) : SameModes a a' ↔ a' = low h a := by
  constructor
  · intro hs
    funext k
    exact (hs (up h k) k (waves_up h k)).symm
  · rintro rfl k k' hk
    show a k = a (up h k')
    rw [waves_inj N k (up h k') fun i => by rw [waves_up, hk]]

theorem unmasked_odd (c : Fin (n + 1) → ℕ) (k : RModes (meshOf c)) : nyquistMask (meshOf c) k = true := by
  rw [nyquistMask, decide_eq_true_iff]
  intro i
  simp only [meshOf]
  push_cast
  constructor <;> omega

theorem unmasked_meshOf (a : RModes (meshOf c) → ℂ) : Unmasked (meshOf c) a := fun k hk => by rw [unmasked_odd] at hk; exact absurd hk (by decide)

theorem nyquistMask_up (h : ∀ i, 2 * c i < N i) (k : RModes (meshOf c)) : nyquistMask N (up h k) = true := by
  rw [nyquistMask, decide_eq_true_iff]
  intro i
  have h1 := abs_le.1 (waves_meshOf c k i)
  have h2 := h i
  rw [waves_up]
  constructor <;> omega

/-- Values of the low modes. -/
theorem backward_lowPass (h : ∀ i, 2 * c i < N i) (M : Fin (n + 1) → ℕ) (a : RModes N → ℂ) :
    (rspace N M).backward (lowPass N c a) = (rspace (meshOf c) M).backward (low h a) := by
  funext x
  simp only [rspace, dft]
  congr 1
  symm
  refine Fintype.sum_of_injective (up h) (up_injective h) _ _ (fun k hk => ?_) fun k => ?_
  · have : lowPass N c a k = 0 := if_neg fun h' => hk (by obtain ⟨l, hl⟩ := up_of h h'; exact ⟨l, hl⟩)
    simp [this]
  · have e : lowPass N c a (up h k) = low h a k := if_pos fun i => by rw [waves_up]; exact waves_meshOf c k i
    rw [e, rweight_up]
    congr 1
    simp only [kernel, waves_up]

open Classical in
/-- Low modes of a product, on any grid with more than three times the cut-off. -/
theorem forward_product {N₁ M : Fin (n + 1) → ℕ} (hM : ∀ i, 3 * c i < M i) (a b : RModes (meshOf c) → ℂ) (k : RModes N₁) (hk : ∀ i, |waves N₁ i k| ≤ (c i : ℤ)) :
    (rspace N₁ M).forward (fun x => (rspace (meshOf c) M).backward a x * (rspace (meshOf c) M).backward b x) k =
      ∑ j : unmasked (meshOf c) × unmasked (meshOf c), if (fun i => waves N₁ i k) = j.1.1 + j.2.1 then
        extend (meshOf c) a j.1.1 * extend (meshOf c) b j.2.1 else 0 := by
  rw [forward_trig_alias N₁ M (fun i => (Nat.zero_le _).trans_lt (hM i)) (fun j : unmasked (meshOf c) × unmasked (meshOf c) => j.1.1 + j.2.1)
    (fun j => extend (meshOf c) a j.1.1 * extend (meshOf c) b j.2.1)]
  · refine Finset.sum_congr rfl fun j _ => ?_
    have hiff : (∀ i, (M i : ℤ) ∣ (j.1.1 + j.2.1) i - waves N₁ i k) ↔ (fun i => waves N₁ i k) = j.1.1 + j.2.1 := by
      constructor
      · intro hd
        funext i
        have h1 := (mem_unmasked _ _).1 j.1.2 i
        have h2 := (mem_unmasked _ _).1 j.2.2 i
        have h3 := abs_le.1 (hk i)
        have h4 := hM i
        simp only [meshOf] at h1 h2
        push_cast at h1 h2
        have h5 : |(j.1.1 + j.2.1) i - waves N₁ i k| < M i := by
          rw [Pi.add_apply, abs_lt]
          constructor <;> omega
        have := Int.eq_zero_of_abs_lt_dvd (hd i) h5
        exact (sub_eq_zero.1 this).symm
      · intro e i
        rw [← e]
        simp
    simp only [hiff]
  · intro x
    rw [ofReal_mul, backward_field _ _ a (unmasked_meshOf a), backward_field _ _ b (unmasked_meshOf b), field, field, Finset.sum_mul_sum, trig,
      Fintype.sum_prod_type, ← Finset.sum_coe_sort]
    refine Finset.sum_congr rfl fun p _ => ?_
    rw [← Finset.sum_coe_sort]
    refine Finset.sum_congr rfl fun q _ => ?_
    rw [show expz M (p.1 + q.1) x = wave M (p.1 + q.1) x from rfl, ← wave_mul]
    ring

/-! ## Solvers on two meshes -/

variable {d : ℕ} {ι X ι' X' : Type*}

/-- The linear map `σ` carries the transforms, the wavenumbers and the mask of one solver to those of another. -/
structure Carries (T : Space ι X) (T' : Space ι' X') (K : Fin d → ι → ℝ) (K' : Fin d → ι' → ℝ) (mask : Option (ι → Bool)) (mask' : Option (ι' → Bool))
    (σ : (ι → ℂ) →ₗ[ℝ] (ι' → ℂ)) : Prop where
  deriv : ∀ i a, σ (D K i a) = D K' i (σ a)
  inv : ∀ a, σ (inv2 K a) = inv2 K' (σ a)
  keep : ∀ a, σ (keepL mask a) = keepL mask' (σ a)
  product : ∀ a b, σ (T.forward fun x => T.backward a x * T.backward b x) = T'.forward fun x => T'.backward (σ a) x * T'.backward (σ b) x

/-- On vectors. -/
noncomputable def onRows (σ : (ι → ℂ) →ₗ[ℝ] (ι' → ℂ)) (d : ℕ) : SArr d ι →ₗ[ℝ] SArr d ι' where
  toFun u i := σ (u i)
  map_add' u v := by funext i; simp
  map_smul' r u := by funext i; simp

theorem directSpace_additive (N c : Fin (n + 1) → ℕ) (both : Bool) : Additive (directSpace N c both) where
  forward f g := by
    have h := (dft_additive (kernel (waves N) N) (rweight N)).forward f g
    funext k
    cases both
    · exact congrFun h k
    · show lowPass N c (fun k => (rspace N N).forward (fun x => f x + g x) k) k = lowPass N c ((rspace N N).forward f) k + lowPass N c ((rspace N N).forward g) k
      have := congrFun h k
      unfold lowPass
      split_ifs
      · exact this
      · simp
  backward a b := by
    have h := (dft_additive (kernel (waves N) N) (rweight N)).backward (lowPass N c a) (lowPass N c b)
    rw [show (fun k => lowPass N c a k + lowPass N c b k) = lowPass N c fun k => a k + b k by funext k; unfold lowPass; split_ifs <;> simp] at h
    exact h

/-- The 2/3-rule on the mesh `N` and the 3/2-rule on the mesh of the retained modes. -/
theorem direct_carries (h3 : ∀ i, 3 * c i < N i) (h : ∀ i, 2 * c i < N i) (both masked : Bool) (L : Fin (n + 1) → ℝ) (mask : Option (RModes N → Bool))
    (hmask : mask = if masked then some (nyquistMask N) else none) :
    Carries (directSpace N c both) (rspace (meshOf c) fun i => padded (meshOf c i)) (scaledWaves N L) (scaledWaves (meshOf c) L) mask
      (some (nyquistMask (meshOf c))) (low h) where
  deriv i a := by
    funext k
    show I * (scaledWaves N L i (up h k) : ℂ) * a (up h k) = I * (scaledWaves (meshOf c) L i k : ℂ) * a (up h k)
    simp only [scaledWaves, waves_up]
  inv a := by
    funext k
    have e : K2 (scaledWaves N L) (up h k) = K2 (scaledWaves (meshOf c) L) k := by simp only [K2, scaledWaves, waves_up]
    show a (up h k) / _ = a (up h k) / _
    rw [e]
  keep a := by
    funext k
    subst hmask
    show (if keeps _ (up h k) then a (up h k) else 0) = if keeps _ k then a (up h k) else 0
    cases masked <;> simp [keeps, nyquistMask_up, unmasked_odd]
  product a b := by
    funext k
    have hk : ∀ i, |waves N i (up h k)| ≤ (c i : ℤ) := fun i => by rw [waves_up]; exact waves_meshOf c k i
    have e : ∀ f, low h ((directSpace N c both).forward f) k = (rspace N N).forward f (up h k) := fun f => by
      cases both
      · rfl
      · exact if_pos hk
    rw [e]
    simp only [directSpace, backward_lowPass h]
    rw [forward_product h3 _ _ _ hk, forward_product (fun i => by simp only [padded, meshOf]; omega) _ _ _ (waves_meshOf c k)]
    simp only [waves_up]

end SpectralDNS.Periodic

import Verif.Lemmas.Symmetry
import Verif.Lemmas.Torus
import Verif.Props.Planar
import Verif.Spec.Symmetry

/-!
# The motions of the box as symmetries of the transforms of the solvers
-/

namespace SpectralDNS.Periodic

open Complex Spec Dealias Torus

variable {n : ℕ}

/-! ## Coefficients at all wavenumbers -/

theorem sum_mode (N : Fin (n + 1) → ℕ) (F : RModes N → ℂ) (p : Fin (n + 1) → ℤ) (hp : p ∈ unmasked N) :
    (0 ≤ p (Fin.last n) ∧ ∃ l, (∀ i, waves N i l = p i) ∧ (∑ l, if (fun i => waves N i l) = p then F l else 0) = F l) ∨
    (p (Fin.last n) < 0 ∧ (∑ l, if (fun i => waves N i l) = p then F l else 0) = 0) := by
  rcases lt_or_ge (p (Fin.last n)) 0 with h | h
  · refine Or.inr ⟨h, Finset.sum_eq_zero fun l _ => if_neg fun e => ?_⟩
    have := waves_last_nonneg N l
    have : waves N (Fin.last n) l = p (Fin.last n) := congrFun e (Fin.last n)
    omega
  · obtain ⟨l, hl⟩ := exists_mode N p ((mem_unmasked N p).1 hp) h
    refine Or.inl ⟨h, l, hl, ?_⟩
    rw [Finset.sum_eq_single l]
    · exact if_pos (_root_.funext hl)
    · intro m _ hm
      exact if_neg fun e => hm (waves_inj N m l fun i => by rw [hl i]; exact congrFun e i)
    · intro h; exact absurd (Finset.mem_univ l) h

theorem neg_mem_unmasked (N : Fin (n + 1) → ℕ) {p : Fin (n + 1) → ℤ} (hp : p ∈ unmasked N) : -p ∈ unmasked N :=
  (mem_unmasked N _).2 fun i => by have := (mem_unmasked N p).1 hp i; simp only [Pi.neg_apply]; constructor <;> omega

/-- An array made of the coefficients of a real function has these coefficients. -/
theorem extend_restrict (N : Fin (n + 1) → ℕ) (C : (Fin (n + 1) → ℤ) → ℂ) (hC : ∀ p, C (-p) = (starRingEnd ℂ) (C p)) (p : Fin (n + 1) → ℤ)
    (hp : p ∈ unmasked N) : extend N (fun k => if nyquistMask N k then C fun i => waves N i k else 0) p = C p := by
  have hm : ∀ (l : RModes N) (q : Fin (n + 1) → ℤ), q ∈ unmasked N → (∀ i, waves N i l = q i) → nyquistMask N l = true := fun l q hq h =>
    (nyquistMask_iff N l).2 fun i => by rw [h i]; exact (mem_unmasked N q).1 hq i
  have hw : ∀ (l : RModes N) (q : Fin (n + 1) → ℤ), q ∈ unmasked N → (∀ i, waves N i l = q i) → rweight N l = if q (Fin.last n) = 0 then 1 else 2 :=
    fun l q hq h => by
      have := (mem_unmasked N q).1 hq (Fin.last n)
      simp only [rweight, h]
      by_cases h0 : q (Fin.last n) = 0
      · simp [h0]
      · rw [if_neg (by rintro (h | h) <;> omega), if_neg h0]
  have h1 := sum_mode N (fun l => (rweight N l : ℂ) * if nyquistMask N l then C fun i => waves N i l else 0) p hp
  have h2 := sum_mode N (fun l => (rweight N l : ℂ) * (starRingEnd ℂ) (if nyquistMask N l then C fun i => waves N i l else 0)) (-p) (neg_mem_unmasked N hp)
  have e2 : ∀ l : RModes N, ((fun i => -waves N i l) = p) = ((fun i => waves N i l) = -p) := fun l => by
    rw [eq_iff_iff]
    constructor
    · intro h; rw [← h]; funext i; simp
    · intro h; funext i; have := congrFun h i; simp only [Pi.neg_apply] at this; rw [this, neg_neg]
  unfold extend
  simp only [e2]
  simp only [Pi.neg_apply] at h2
  rcases h1 with ⟨a1, l, b1, c1⟩ | ⟨a1, c1⟩ <;> rcases h2 with ⟨a2, l', b2, c2⟩ | ⟨a2, c2⟩
  · have h0 : p (Fin.last n) = 0 := by omega
    rw [c1, c2, hm l p hp b1, hm l' (-p) (neg_mem_unmasked N hp) b2, hw l p hp b1, hw l' (-p) (neg_mem_unmasked N hp) b2, if_pos h0,
      if_pos (show (-p) (Fin.last n) = 0 by simp [h0]), if_pos rfl, if_pos rfl, show (fun i => waves N i l) = p from _root_.funext b1,
      show (fun i => waves N i l') = -p from _root_.funext b2, hC, conj_conj]
    push_cast; ring
  · rw [c1, c2, hm l p hp b1, hw l p hp b1, if_neg (by omega), if_pos rfl, show (fun i => waves N i l) = p from _root_.funext b1]
    push_cast; ring
  · rw [c1, c2, hm l' (-p) (neg_mem_unmasked N hp) b2, hw l' (-p) (neg_mem_unmasked N hp) b2, if_neg (by simp only [Pi.neg_apply]; omega), if_pos rfl,
      show (fun i => waves N i l') = -p from _root_.funext b2, hC, conj_conj]
    push_cast; ring
  · omega

theorem extend_keep (N : Fin (n + 1) → ℕ) (a : RModes N → ℂ) (p : Fin (n + 1) → ℤ) (hp : p ∈ unmasked N) :
    extend N (keepL (some (nyquistMask N)) a) p = extend N a p := by
  have hm : ∀ (l : RModes N) (q : Fin (n + 1) → ℤ), q ∈ unmasked N → (fun i => waves N i l) = q → nyquistMask N l = true := fun l q hq h =>
    (nyquistMask_iff N l).2 fun i => by rw [show waves N i l = q i from congrFun h i]; exact (mem_unmasked N q).1 hq i
  unfold extend
  congr 2
  · refine Finset.sum_congr rfl fun l _ => ?_
    split_ifs with h
    · simp [keepL, keeps, hm l p hp h]
    · rfl
  · refine Finset.sum_congr rfl fun l _ => ?_
    split_ifs with h
    · have : (fun i => waves N i l) = -p := by rw [← h]; funext i; simp
      simp [keepL, keeps, hm l (-p) (neg_mem_unmasked N hp) this]
    · rfl

theorem extend_neg (N : Fin (n + 1) → ℕ) (a : RModes N → ℂ) (p : Fin (n + 1) → ℤ) : extend N a (-p) = (starRingEnd ℂ) (extend N a p) := by
  have e1 : ∀ l : RModes N, ((fun i => waves N i l) = -p) = ((fun i => -waves N i l) = p) := fun l => by
    rw [eq_iff_iff]
    constructor
    · intro h; funext i; have := congrFun h i; simp only [Pi.neg_apply] at this; rw [this, neg_neg]
    · intro h; rw [← h]; funext i; simp
  have e2 : ∀ l : RModes N, ((fun i => -waves N i l) = -p) = ((fun i => waves N i l) = p) := fun l => by
    rw [eq_iff_iff]
    constructor
    · intro h; funext i; have := congrFun h i; simp only [Pi.neg_apply] at this; omega
    · intro h; rw [← h]; funext i; simp
  unfold extend
  simp only [e1, e2, map_div₀, map_add, map_sum, apply_ite (starRingEnd ℂ), map_zero, map_mul, conj_ofReal, conj_conj, map_ofNat]
  rw [add_comm]

theorem extend_add (N : Fin (n + 1) → ℕ) (a b : RModes N → ℂ) (p : Fin (n + 1) → ℤ) : extend N (a + b) p = extend N a p + extend N b p := by
  unfold extend
  rw [← add_div]
  congr 1
  simp only [← Finset.sum_add_distrib]
  exact Finset.sum_congr rfl fun l _ => by split_ifs <;> simp [mul_add] <;> ring

theorem extend_smul (N : Fin (n + 1) → ℕ) (r : ℝ) (a : RModes N → ℂ) (p : Fin (n + 1) → ℤ) : extend N (r • a) p = r * extend N a p := by
  unfold extend
  rw [mul_div_assoc', mul_add, Finset.mul_sum, Finset.mul_sum]
  congr 2
  · exact Finset.sum_congr rfl fun l _ => by split_ifs <;> simp; ring
  · exact Finset.sum_congr rfl fun l _ => by split_ifs <;> simp; ring

/-! ## The motion on wavenumbers and arrays -/

variable {d : ℕ}

/-- The wavenumber which the motion takes to `q`. -/
def lat (π : Equiv.Perm (Fin d)) (s : Fin d → ℤˣ) : (Fin d → ℤ) ≃ (Fin d → ℤ) where
  toFun q j := (s (π.symm j) : ℤ) * q (π.symm j)
  invFun p i := (s i : ℤ) * p (π i)
  left_inv q := by funext i; simp [← mul_assoc]
  right_inv p := by funext j; simp [← mul_assoc]

theorem lat_apply (π : Equiv.Perm (Fin d)) (s : Fin d → ℤˣ) (q : Fin d → ℤ) (i : Fin d) : lat π s q (π i) = (s i : ℤ) * q i := by simp [lat]

theorem lat_neg (π : Equiv.Perm (Fin d)) (s : Fin d → ℤˣ) (q : Fin d → ℤ) : lat π s (-q) = -lat π s q := by funext j; simp [lat]

theorem unit_mul_abs (z : ℤˣ) (a b : ℤ) : (-a < 2 * ((z : ℤ) * b) ∧ 2 * ((z : ℤ) * b) < a) ↔ (-a < 2 * b ∧ 2 * b < a) := by
  rcases Int.units_eq_one_or z with rfl | rfl
  · simp
  · simp only [Units.val_neg, Units.val_one, neg_mul, one_mul]
    constructor <;> rintro ⟨h1, h2⟩ <;> constructor <;> omega

theorem lat_mem (N : Fin d → ℕ) (π : Equiv.Perm (Fin d)) (s : Fin d → ℤˣ) (hN : ∀ i, N (π i) = N i) (q : Fin d → ℤ) :
    lat π s q ∈ unmasked N ↔ q ∈ unmasked N := by
  rw [mem_unmasked, mem_unmasked, ← π.forall_congr_right]
  refine forall_congr' fun i => ?_
  rw [lat_apply, hN]
  exact unit_mul_abs ..

theorem lat_dvd (M : Fin d → ℕ) (π : Equiv.Perm (Fin d)) (s : Fin d → ℤˣ) (hM : ∀ i, M (π i) = M i) (p q k : Fin d → ℤ) :
    (∀ i, (M i : ℤ) ∣ lat π s p i + lat π s q i - lat π s k i) ↔ ∀ i, (M i : ℤ) ∣ p i + q i - k i := by
  rw [← π.forall_congr_right]
  refine forall_congr' fun i => ?_
  rw [lat_apply, lat_apply, lat_apply, hM, ← mul_add, ← mul_sub]
  exact (s i).isUnit.dvd_mul_left

/-- The action on the coefficients of a scalar. -/
noncomputable def act (N : Fin (n + 1) → ℕ) (L : Fin (n + 1) → ℝ) (π : Equiv.Perm (Fin (n + 1))) (s : Fin (n + 1) → ℤˣ) (h : Fin (n + 1) → ℝ) :
    (RModes N → ℂ) →ₗ[ℝ] (RModes N → ℂ) where
  toFun a k := if nyquistMask N k then cwave L (lat π s fun i => waves N i k) h * extend N a (lat π s fun i => waves N i k) else 0
  map_add' a b := by
    funext k
    simp only [Pi.add_apply, extend_add]
    split_ifs
    · ring
    · simp
  map_smul' r a := by
    funext k
    simp only [Pi.smul_apply, extend_smul, RingHom.id_apply, real_smul]
    split_ifs
    · ring
    · simp

theorem extend_act (N : Fin (n + 1) → ℕ) (L : Fin (n + 1) → ℝ) (π : Equiv.Perm (Fin (n + 1))) (s : Fin (n + 1) → ℤˣ) (h : Fin (n + 1) → ℝ)
    (a : RModes N → ℂ) (p : Fin (n + 1) → ℤ) (hp : p ∈ unmasked N) :
    extend N (act N L π s h a) p = cwave L (lat π s p) h * extend N a (lat π s p) := by
  refine extend_restrict N (fun p => cwave L (lat π s p) h * extend N a (lat π s p)) (fun p => ?_) p hp
  rw [lat_neg, extend_neg, map_mul, conj_cwave]

theorem act_unmasked (N : Fin (n + 1) → ℕ) (L : Fin (n + 1) → ℝ) (π : Equiv.Perm (Fin (n + 1))) (s : Fin (n + 1) → ℤˣ) (h : Fin (n + 1) → ℝ)
    (a : RModes N → ℂ) : Unmasked N (act N L π s h a) := fun k hk => by simp [act, hk]

/-- The array after the motion belongs to the field after the motion. -/
theorem act_field (N : Fin (n + 1) → ℕ) (L : Fin (n + 1) → ℝ) (π : Equiv.Perm (Fin (n + 1))) (s : Fin (n + 1) → ℤˣ) (h : Fin (n + 1) → ℝ)
    (hN : ∀ i, N (π i) = N i) (hL : ∀ i, L (π i) = L i) (a : RModes N → ℂ) (ha : Unmasked N a) (x : Fin (n + 1) → ℝ) :
    trigField (rweight N) (scaledWaves N L) (act N L π s h a) x = trigField (rweight N) (scaledWaves N L) a (move π s h x) := by
  refine ofReal_injective ?_
  rw [trigField_eq N L _ (act_unmasked N L π s h a), trigField_eq N L a ha]
  refine Finset.sum_equiv (lat π s) (fun p => (lat_mem N π s hN p).symm) fun p hp => ?_
  rw [extend_act N L π s h a p hp, mul_right_comm, mul_comm]
  congr 1
  rw [cwave, cwave, ← Complex.exp_add, cwave, ← mul_add]
  congr 2
  have e : ∑ i, ((2 * Real.pi / L i * (p i : ℤ) : ℝ) : ℂ) * (x i : ℂ) =
      ∑ j, ((2 * Real.pi / L j * (lat π s p j : ℤ) : ℝ) : ℂ) * ((((s (π.symm j) : ℤ) : ℝ) * x (π.symm j) : ℝ) : ℂ) := by
    rw [← Equiv.sum_comp π fun j => ((2 * Real.pi / L j * (lat π s p j : ℤ) : ℝ) : ℂ) * ((((s (π.symm j) : ℤ) : ℝ) * x (π.symm j) : ℝ) : ℂ)]
    refine Finset.sum_congr rfl fun i _ => ?_
    rw [lat_apply, hL, Equiv.symm_apply_apply]
    have hs : (((s i : ℤ) : ℝ)) * ((s i : ℤ) : ℝ) = 1 := sgR_mul_self (s i)
    rw [← ofReal_mul, ← ofReal_mul]
    congr 1
    push_cast
    linear_combination -(2 * Real.pi / L i * p i * x i) * hs
  rw [e, ← Finset.sum_add_distrib]
  refine Finset.sum_congr rfl fun j _ => ?_
  simp only [move]
  push_cast
  ring

theorem act_isReal (N : Fin (n + 1) → ℕ) (L : Fin (n + 1) → ℝ) (π : Equiv.Perm (Fin (n + 1))) (s : Fin (n + 1) → ℤˣ) (h : Fin (n + 1) → ℝ)
    (a : RModes N → ℂ) : IsReal N (act N L π s h a) := by
  intro k k' hk
  have e : (fun i => waves N i k') = -fun i => waves N i k := _root_.funext hk
  have hm : nyquistMask N k' = nyquistMask N k := by
    rw [Bool.eq_iff_iff, nyquistMask_iff, nyquistMask_iff]
    refine forall_congr' fun i => ?_
    rw [hk i]
    constructor <;> rintro ⟨h1, h2⟩ <;> constructor <;> omega
  simp only [act, LinearMap.coe_mk, AddHom.coe_mk, e, lat_neg, extend_neg, hm, apply_ite (starRingEnd ℂ), map_mul, conj_cwave, map_zero]

open Classical in
/-- The motions are symmetries, provided the displacement is compatible with aliasing. -/
theorem act_symm (N M : Fin (n + 1) → ℕ) (L : Fin (n + 1) → ℝ) (π : Equiv.Perm (Fin (n + 1))) (s : Fin (n + 1) → ℤˣ) (h : Fin (n + 1) → ℝ)
    (hN : ∀ i, N (π i) = N i) (hM : ∀ i, M (π i) = M i) (hL : ∀ i, L (π i) = L i) (hM0 : ∀ i, 0 < M i)
    (hh : ∀ p ∈ unmasked N, ∀ q ∈ unmasked N, ∀ k ∈ unmasked N, (∀ i, (M i : ℤ) ∣ p i + q i - k i) → cwave L p h * cwave L q h = cwave L k h) :
    Symm (rspace N M) (scaledWaves N L) (some (nyquistMask N)) (act N L π s h) π s where
  deriv i a := by
    funext k
    simp only [act, D, LinearMap.coe_mk, AddHom.coe_mk, Pi.smul_apply, real_smul]
    rw [show extend N (Spec.deriv (scaledWaves N L) (π i) a) = _ from _root_.funext (extend_deriv N L (π i) a)]
    simp only [Spec.deriv, lat_apply, hL, scaledWaves, sgR]
    split_ifs
    · push_cast; ring
    · simp
  keep a := by
    funext k
    simp only [act, LinearMap.coe_mk, AddHom.coe_mk]
    by_cases hk : nyquistMask N k = true
    · simp only [hk, if_true]
      rw [extend_keep N a _ ((lat_mem N π s hN _).2 ((mem_unmasked N _).2 ((nyquistMask_iff N k).1 hk)))]
      simp [keepL, keeps, hk]
    · simp [keepL, keeps, hk]
  product a c ha hc := by
    funext k
    by_cases hk : nyquistMask N k = true
    swap
    · simp [pr, keepL, keeps, act, hk]
    have hkS := (mem_unmasked N _).2 ((nyquistMask_iff N k).1 hk)
    have hfw : ∀ a c : RModes N → ℂ, Unmasked N a → Unmasked N c → ∀ q,
        coeff M (fun x => (((rspace N M).backward a x * (rspace N M).backward c x : ℝ) : ℂ)) q =
          ∑ p ∈ unmasked N, ∑ p' ∈ unmasked N, if ∀ i, (M i : ℤ) ∣ p i + p' i - q i then extend N a p * extend N c p' else 0 := fun a c ha hc q => by
      rw [← coeff_product M hM0]
      congr 1
      funext x
      rw [ofReal_mul, backward_field N M a ha, backward_field N M c hc]
    have h1 : pr (rspace N M) (some (nyquistMask N)) (act N L π s h a) (act N L π s h c) k =
        coeff M (fun x => (((rspace N M).backward (act N L π s h a) x * (rspace N M).backward (act N L π s h c) x : ℝ) : ℂ)) fun i => waves N i k := by
      exact if_pos hk
    have h2 : pr (rspace N M) (some (nyquistMask N)) a c = fun k => if nyquistMask N k then
        coeff M (fun x => (((rspace N M).backward a x * (rspace N M).backward c x : ℝ) : ℂ)) (fun i => waves N i k) else 0 := by
      funext k
      rfl
    rw [h1, hfw _ _ (act_unmasked N L π s h a) (act_unmasked N L π s h c), h2]
    have h3 : ∀ b, act N L π s h b k = cwave L (lat π s fun i => waves N i k) h * extend N b (lat π s fun i => waves N i k) := fun b => if_pos hk
    rw [h3, extend_restrict N _ (fun p => ?_) _ ((lat_mem N π s hN _).2 hkS), hfw a c ha hc, Finset.mul_sum]
    · refine Finset.sum_equiv (lat π s) (fun p => (lat_mem N π s hN p).symm) fun p hp => ?_
      rw [Finset.mul_sum]
      refine Finset.sum_equiv (lat π s) (fun p => (lat_mem N π s hN p).symm) fun q hq => ?_
      by_cases hd : ∀ i, (M i : ℤ) ∣ p i + q i - waves N i k
      · rw [if_pos hd, if_pos ((lat_dvd M π s hM p q _).2 hd)]
        rw [extend_act N L π s h a p hp, extend_act N L π s h c q hq, ← hh _ ((lat_mem N π s hN p).2 hp) _ ((lat_mem N π s hN q).2 hq) _ ((lat_mem N π s hN _).2 hkS) ((lat_dvd M π s hM p q _).2 hd)]
        ring
      · rw [if_neg hd, if_neg (fun h => hd ((lat_dvd M π s hM p q _).1 h)), mul_zero]
    · unfold coeff
      simp only [map_mul, map_sum, map_div₀, map_one, map_natCast, conj_ofReal, conj_wave, neg_neg]

/-- Any displacement with the 3/2-rule. -/
theorem displacement_padded (N : Fin (n + 1) → ℕ) (hN : ∀ i, 0 < N i) (L h : Fin (n + 1) → ℝ) :
    ∀ p ∈ unmasked N, ∀ q ∈ unmasked N, ∀ k ∈ unmasked N, (∀ i, (padded (N i) : ℤ) ∣ p i + q i - k i) → cwave L p h * cwave L q h = cwave L k h := by
  intro p hp q hq k hk hd
  rw [cwave_mul, (aliasFree_iff _ (fun i => by have := hN i; unfold padded; omega) _).1 (C55_three_halves N hN) p hp q hq k hk hd]

/-- Displacements by grid cells on any grid. -/
theorem displacement_grid (M : Fin d → ℕ) (hM : ∀ i, 0 < M i) (L : Fin d → ℝ) (hL : ∀ i, L i ≠ 0) (m : Fin d → ℤ) (p q k : Fin d → ℤ)
    (hd : ∀ i, (M i : ℤ) ∣ p i + q i - k i) :
    cwave L p (fun i => L i * m i / M i) * cwave L q (fun i => L i * m i / M i) = cwave L k fun i => L i * m i / M i := by
  choose t ht using hd
  rw [cwave_mul, cwave, cwave, Complex.exp_eq_exp_iff_exists_int]
  refine ⟨∑ i, t i * m i, ?_⟩
  rw [Finset.mul_sum, Finset.mul_sum]
  push_cast
  rw [Finset.sum_mul, ← Finset.sum_add_distrib]
  refine Finset.sum_congr rfl fun i _ => ?_
  have h1 : (L i : ℂ) ≠ 0 := by exact_mod_cast hL i
  have h2 : (M i : ℂ) ≠ 0 := by exact_mod_cast (hM i).ne'
  have h3 : ((p i : ℂ) + q i) = k i + M i * t i := by
    have := ht i
    exact_mod_cast (by omega : p i + q i = k i + M i * t i)
  simp only [Pi.add_apply]
  push_cast
  rw [h3]
  field_simp

end SpectralDNS.Periodic

import Verif.Model.RBDemo
import Verif.Props.RBConduct
import Verif.Props.FFT

/-!
# C90: the start of demo/RayleighBenard.py, and the meaning of `bc=(1, 0)`
-/

namespace SpectralDNS.Channel

open Polynomial Periodic Spec.Field Spec.Channel

/-! ## Specification -/

/-- The temperatures of the walls `x = 1` and `x = -1` for `bc=(1, 0)`. -/
def wallBC : BcOrder → ℝ × ℝ
  | .upper => (1, 0)
  | .lower => (0, 1)

section Start

variable {N : Fin 2 → ℕ} {L : Fin 2 → ℝ} {n : ℕ}

/-- The coefficients are those of a real field (opposite wavenumbers have conjugate coefficients). -/
def RealT (t : Temp (RModes N) (Fin (n + 2) → ℂ)) : Prop :=
  ∀ k k', (∀ i, waves N i k' = -waves N i k) → ∀ i, t.d k' i = (starRingEnd ℂ) (t.d k i)

/-! ## Transforms -/

theorem matC_conj {a b : ℕ} (A : Matrix (Fin a) (Fin b) ℝ) (v w : Fin b → ℂ) (h : ∀ j, w j = (starRingEnd ℂ) (v j)) (i : Fin a) :
    matC A w i = (starRingEnd ℂ) (matC A v i) := by
  simp only [matC, Matrix.toLin'_apply, Matrix.mulVec, dotProduct, map_sum, map_mul, Matrix.map_apply, Complex.conj_ofReal, h]

theorem forwardWall_conj (q : Quad) (m : ℕ) (f : ℕ → ℝ[X]) {a : ℕ} (v w : Fin m → ℂ) (h : ∀ j, w j = (starRingEnd ℂ) (v j)) (i : Fin a) :
    forwardWall q m f w i = (starRingEnd ℂ) (forwardWall q m f v i) := by
  unfold forwardWall
  rw [LinearMap.comp_apply, LinearMap.comp_apply]
  refine matC_conj _ _ _ (fun j => ?_) i
  simp [LinearMap.sum_apply, h]

theorem expandC_conj_eval (f : ℕ → ℝ[X]) {a : ℕ} (v w : Fin a → ℂ) (h : ∀ j, w j = (starRingEnd ℂ) (v j)) (x : ℝ) :
    (expandC f w).eval (x : ℂ) = (starRingEnd ℂ) ((expandC f v).eval (x : ℂ)) := by
  have key : ∀ j : Fin a, (starRingEnd ℂ) (((f j).map Complex.ofRealHom).eval (x : ℂ)) = ((f j).map Complex.ofRealHom).eval (x : ℂ) := fun j => by
    have : ((f j).map Complex.ofRealHom).eval (x : ℂ) = (((f j).eval x : ℝ) : ℂ) := by
      rw [eval_map]
      exact eval₂_at_apply Complex.ofRealHom x
    rw [this, Complex.conj_ofReal]
  simp only [expandC_apply, eval_finset_sum, eval_smul, smul_eq_mul, map_sum, map_mul, key, h]

theorem zero_of_waves (hN : ∀ i, 0 < N i) (k : RModes N) (h : ∀ i, waves N i k = 0) : k = (waveGrid N L hN).zero := by
  have e := (waveGrid_zero N (fun _ => 1) hN (fun _ => one_ne_zero) k).1 (by
    show scaledWaves N (fun _ => (1 : ℝ)) 0 k * scaledWaves N (fun _ => (1 : ℝ)) 0 k + scaledWaves N (fun _ => (1 : ℝ)) 1 k * scaledWaves N (fun _ => (1 : ℝ)) 1 k = 0
    simp [scaledWaves, h])
  exact e

theorem opposite_zero (hN : ∀ i, 0 < N i) (k k' : RModes N) (h : ∀ i, waves N i k' = -waves N i k) :
    k' = (waveGrid N L hN).zero ↔ k = (waveGrid N L hN).zero := by
  constructor
  · intro e
    refine zero_of_waves hN k fun i => ?_
    have := h i
    rw [e, waveGrid_waves hN] at this
    omega
  · intro e
    refine zero_of_waves hN k' fun i => ?_
    rw [h i, e, waveGrid_waves hN, neg_zero]

theorem mask_zero (hN : ∀ i, 0 < N i) : nyquistMask N (waveGrid N L hN).zero = true := by
  rw [nyquistMask_iff]
  intro i
  rw [waveGrid_waves hN]
  have := hN i
  constructor <;> omega

/-- The boundary part at a point. -/
theorem tempPoly_split (d : Fin (n + 2) → ℂ) (p q x : ℂ) :
    (tempPoly d p q).eval x - (tempPoly (0 : Fin (n + 2) → ℂ) p q).eval x = (expandC phi d).eval x := by
  simp [tempPoly]

/-- C90: whatever temperature of the space is sampled on the grid, `forward` finds its coefficients. -/
theorem C90_recovers (o : BcOrder) (hN : ∀ i, 0 < N i) (t : Temp (RModes N) (Fin (n + 2) → ℂ)) (hr : RealT t)
    (hmask : ∀ k, nyquistMask N k = false → t.d k = 0) (hb : HasBC (1, 0) (waveGrid N L hN).zero t) :
    forwardRB o n (rspace N N) (waveGrid N L hN).zero (bwdT (rspace N N) (physical o t)) = t := by
  set z := (waveGrid N L hN).zero with hz
  have hp : t.p = (bcTemp (n := n) z).p := by
    funext k
    by_cases hk : k = z
    · rw [hk, hb.1]; simp [bcTemp]
    · rw [hb.2.1 k hk]; simp [bcTemp, hk]
  have hq : t.q = (bcTemp (n := n) z).q := by
    funext k
    by_cases hk : k = z
    · rw [hk, hb.2.2.1]; simp [bcTemp]
    · rw [hb.2.2.2 k hk]; simp [bcTemp]
  have hpo : (physical o t).p = (physical o (bcTemp (n := n) z)).p := by cases o <;> simp [physical, hp, hq]
  have hqo : (physical o t).q = (physical o (bcTemp (n := n) z)).q := by cases o <;> simp [physical, hp, hq]
  have hdo : (physical o t).d = t.d := by cases o <;> rfl
  have hd0 : (physical o (bcTemp (n := n) z)).d = 0 := by cases o <;> rfl
  have pz : ∀ k, k ≠ z → (physical o t).p k = 0 := fun k hk => by cases o <;> simp [physical, hb.2.1 k hk, hb.2.2.2 k hk]
  have qz : ∀ k, k ≠ z → (physical o t).q k = 0 := fun k hk => by cases o <;> simp [physical, hb.2.1 k hk, hb.2.2.2 k hk]
  have pr : (starRingEnd ℂ) ((physical o t).p z) = (physical o t).p z := by cases o <;> simp [physical, hb.1, hb.2.2.1]
  have qr : (starRingEnd ℂ) ((physical o t).q z) = (physical o t).q z := by cases o <;> simp [physical, hb.1, hb.2.2.1]
  have key : ∀ (x : ℝ), (rspace N N).forward ((rspace N N).backward fun k =>
      (tempPoly ((physical o t).d k) ((physical o t).p k) ((physical o t).q k)).eval (x : ℂ)) = fun k =>
      (tempPoly ((physical o t).d k) ((physical o t).p k) ((physical o t).q k)).eval (x : ℂ) := fun x => by
    refine rspace_inverse N N hN (fun _ => le_rfl) _ (fun k hk => ?_) (fun k k' h => ?_)
    · have hkz : k ≠ z := fun e => by rw [e, hz, mask_zero hN] at hk; exact absurd hk (by decide)
      beta_reduce
      rw [hdo, hmask k hk, pz k hkz, qz k hkz]
      simp [tempPoly]
    · beta_reduce
      have e1 := expandC_conj_eval phi (t.d k) (t.d k') (hr k k' h) x
      by_cases hk : k = z
      · have hk' : k' = z := (opposite_zero hN k k' h).2 hk
        subst hk
        rw [hk'] at e1 ⊢
        simp only [tempPoly, hdo, eval_add, eval_mul, eval_C, eval_X, map_add, map_mul, pr, qr, map_sub, ← e1]
        simp [map_ofNat, pr, qr]
      · have hk' : k' ≠ z := fun e => hk ((opposite_zero hN k k' h).1 e)
        rw [hdo, pz k hk, qz k hk, pz k' hk', qz k' hk']
        simp only [tempPoly, eval_add, map_add, ← e1]
        simp
  ext k i
  · simp only [forwardRB]
    have : (fun j : Fin (n + 4) => (rspace N N).forward (bwdT (rspace N N) (physical o t) j) k -
        (tempPoly ((physical o (bcTemp (n := n) z)).d k) ((physical o (bcTemp (n := n) z)).p k) ((physical o (bcTemp (n := n) z)).q k)).eval
          ((quadPoint .GC (n + 4) j : ℝ) : ℂ)) = fun j => ((chebWall .GC n).fD (t.d k)).eval ((chebWall .GC n).x j : ℂ) := by
      funext j
      have := congrFun (key (quadPoint .GC (n + 4) j)) k
      rw [bwdT, synth]
      show (rspace N N).forward ((rspace N N).backward _) k - _ = _
      rw [show ((chebWall .GC n).x j) = quadPoint .GC (n + 4) j from rfl, this, ← hpo, ← hqo, hd0, Pi.zero_apply, tempPoly_split, hdo]
      rfl
    rw [this]
    exact congrFun (C73_cheb_forward .GC n (t.d k)) i
  · exact (congrFun hp k).symm
  · exact (congrFun hq k).symm

theorem forwardRB_real (o : BcOrder) (hN : ∀ i, 0 < N i) (a : Fin (n + 4) → Periodic.Grid N → ℝ) :
    RealT (forwardRB o n (rspace N N) (waveGrid N L hN).zero a) := by
  intro k k' h i
  simp only [forwardRB]
  refine forwardWall_conj _ _ _ _ _ (fun j => ?_) i
  rw [rspace_forward_conj N N _ k k' h, map_sub]
  congr 1
  have hz := opposite_zero (L := L) hN k k' h
  cases o <;> by_cases hk : k = (waveGrid N L hN).zero <;>
    simp [physical, bcTemp, hk, hz, tempPoly, eval_add, eval_mul, map_ofNat]

theorem masked_bc (o : BcOrder) (hN : ∀ i, 0 < N i) (a : Fin (n + 4) → Periodic.Grid N → ℝ) :
    HasBC (1, 0) (waveGrid N L hN).zero (maskTemp (nyquistMask N) (forwardRB o n (rspace N N) (waveGrid N L hN).zero a)) := by
  refine ⟨?_, fun k hk => ?_, ?_, fun k hk => ?_⟩
  · simp [maskTemp, mask_zero hN, forwardRB, bcTemp]
  · simp [maskTemp, forwardRB, bcTemp, hk]
  · simp [maskTemp, forwardRB, bcTemp]
  · simp [maskTemp, forwardRB, bcTemp]

/-- C90: the start is the first transform without Nyquist modes, whatever the noise: the second transform changes nothing. -/
theorem C90_start (o : BcOrder) (q : Quad) (hN : ∀ i, 0 < N i) (r : Fin (n + 4) → Periodic.Grid N → ℝ) :
    let z := (waveGrid N L hN).zero
    initializeRB o q n (rspace N N) (nyquistMask N) z r = maskTemp (nyquistMask N) (forwardRB o n (rspace N N) z (perturbed q n r)) := by
  intro z
  refine C90_recovers o hN _ (fun k k' h i => ?_) (fun k hk => ?_) (masked_bc o hN _)
  · have e : nyquistMask N k' = nyquistMask N k := by
      have : nyquistMask N k' = true ↔ nyquistMask N k = true := by
        rw [nyquistMask_iff, nyquistMask_iff]
        refine forall_congr' fun j => ?_
        rw [h j]
        constructor <;> rintro ⟨a, b⟩ <;> constructor <;> omega
      exact Bool.eq_iff_iff.2 this
    simp only [maskTemp, e]
    split_ifs with hm
    · exact forwardRB_real o hN _ k k' h i
    · simp
  · simp [maskTemp, hk]

theorem physical_bc (o : BcOrder) {κ : Type*} (z : κ) (t : Temp κ (Fin (n + 2) → ℂ)) (h : HasBC (1, 0) z t) : HasBC (wallBC o) z (physical o t) := by
  cases o
  · exact h
  · exact ⟨h.2.2.1, h.2.2.2, h.1, h.2.1⟩

/-- C90: the start has the boundary coefficients of the solvers and no Nyquist modes, is real, and has the wall temperatures, whatever the noise. -/
theorem C90_walls (o : BcOrder) (q : Quad) (hN : ∀ i, 0 < N i) (hL : ∀ i, L i ≠ 0) (r : Fin (n + 4) → Periodic.Grid N → ℝ) :
    let z := (waveGrid N L hN).zero
    let t := initializeRB o q n (rspace N N) (nyquistMask N) z r
    HasBC (1, 0) z t ∧ (∀ k, nyquistMask N k = false → t.d k = 0) ∧ RealT t ∧ WallTemperatures (wallBC o) (fieldT L (physical o t)) := by
  intro z t
  have h : HasBC (1, 0) z t := by
    show HasBC (1, 0) z (initializeRB _ _ _ _ _ _ _)
    rw [C90_start o q hN r]; exact masked_bc o hN _
  refine ⟨h, fun k hk => ?_, forwardRB_real o hN _, wall_temperatures hN hL _ (physical_bc o z t h)⟩
  show (initializeRB _ _ _ _ _ _ _).d k = 0
  rw [C90_start o q hN r]
  simp [maskTemp, hk]

/-- The conduction state: nothing but the boundary values. -/
theorem fieldT_conducting (o : BcOrder) (hN : ∀ i, 0 < N i) (hL : ∀ i, L i ≠ 0) (t : Temp (RModes N) (Fin (n + 2) → ℂ))
    (hb : HasBC (1, 0) (waveGrid N L hN).zero t) (hd : t.d = 0) (x y z : ℝ) :
    fieldT L (physical o t) x y z = ((wallBC o).1 + (wallBC o).2) / 2 + ((wallBC o).1 - (wallBC o).2) / 2 * x := by
  have hd' : (physical o t).d = 0 := by cases o <;> exact hd
  rw [fieldT_layered n hN hL _ (physical_bc o _ t hb) (fun k _ => by rw [hd']; rfl), hd']
  have e := tempPoly_conduction (wallBC o) (0 : Fin (n + 2) → ℂ)
  rw [map_zero, sub_eq_zero] at e
  rw [Pi.zero_apply, e, conduction]
  simp only [eval_add, eval_C, eval_mul, eval_X]
  rw [← Complex.ofReal_mul, ← Complex.ofReal_add, Complex.ofReal_re]

/-- C90: without noise, with the default quadrature and `bc=(1, 0)` read as lower wall first, the start is the conduction profile exactly. -/
theorem C90_conduction (hN : ∀ i, 0 < N i) (hL : ∀ i, L i ≠ 0) :
    let t := initializeRB .lower .GC n (rspace N N) (nyquistMask N) (waveGrid N L hN).zero 0
    t.d = 0 ∧ ∀ x y z, fieldT L (physical .lower t) x y z = (1 - x) / 2 := by
  intro t
  have ht : t.d = 0 := by
    have hb : HasBC (1, 0) (waveGrid N L hN).zero (bcTemp n (waveGrid N L hN).zero) :=
      ⟨by simp [bcTemp], fun k hk => by simp [bcTemp, hk], by simp [bcTemp], fun k hk => by simp [bcTemp]⟩
    have h1 : perturbed .GC n (0 : Fin (n + 4) → Periodic.Grid N → ℝ) = bwdT (rspace N N) (physical .lower (bcTemp n (waveGrid N L hN).zero)) := by
      rw [bwdT, synth_eq L hL]
      funext j p
      have := fieldT_conducting .lower hN hL _ hb rfl (quadPoint .GC (n + 4) j) (coord L N 0 p) (coord L N 1 p)
      refine Eq.trans ?_ this.symm
      simp only [perturbed, wallBC, Pi.zero_apply]
      ring
    have h2 := C90_recovers .lower hN _ (fun k k' _ i => by simp [bcTemp]) (fun k _ => rfl) hb
    show (initializeRB _ _ _ _ _ _ _).d = 0
    rw [C90_start .lower .GC hN 0, h1, h2]
    funext k
    simp [maskTemp, bcTemp]
  refine ⟨ht, fun x y z => ?_⟩
  rw [fieldT_conducting .lower hN hL t (C90_walls .lower .GC hN hL 0).1 ht]
  simp only [wallBC]
  ring

/-- C90: noise which, with the factors of `initialize`, samples a temperature of the space gives exactly that temperature: `(1-x)/2` and the
noise times `(1-x^2)/200`. -/
theorem C90_resolved (o : BcOrder) (hN : ∀ i, 0 < N i) (hL : ∀ i, L i ≠ 0) (r : Fin (n + 4) → Periodic.Grid N → ℝ)
    (t : Temp (RModes N) (Fin (n + 2) → ℂ)) (hr : RealT t) (hmask : ∀ k, nyquistMask N k = false → t.d k = 0)
    (hb : HasBC (1, 0) (waveGrid N L hN).zero t)
    (hs : ∀ (j : Fin (n + 4)) p, fieldT L (physical o t) (quadPoint .GC (n + 4) j) (coord L N 0 p) (coord L N 1 p) =
      (1 - quadPoint .GC (n + 4) j) / 2 + (1 - quadPoint .GC (n + 4) j ^ 2) / 200 * r j p) :
    initializeRB o .GC n (rspace N N) (nyquistMask N) (waveGrid N L hN).zero r = t := by
  have h1 : perturbed .GC n r = bwdT (rspace N N) (physical o t) := by
    rw [bwdT, synth_eq L hL]
    funext j p
    refine Eq.trans ?_ (hs j p).symm
    simp only [perturbed]
    ring
  rw [C90_start o .GC hN r, h1, C90_recovers o hN t hr hmask hb]
  ext k i
  · by_cases hk : nyquistMask N k = true
    · simp [maskTemp, hk]
    · simp [maskTemp, hk, hmask k (by simpa using hk)]
  · by_cases hk : nyquistMask N k = true
    · simp [maskTemp, hk]
    · have : k ≠ (waveGrid N L hN).zero := fun e => hk (by rw [e, mask_zero hN])
      simp [maskTemp, hk, hb.2.1 k this]
  · by_cases hk : nyquistMask N k = true
    · simp [maskTemp, hk]
    · have : k ≠ (waveGrid N L hN).zero := fun e => hk (by rw [e, mask_zero hN])
      simp [maskTemp, hk, hb.2.2.2 k this]

/-- C90: an instance of the previous theorem: with the same number `c` everywhere for the noise the start is `(1-x)/2 + c(1-x^2)/200`, a
perturbation which vanishes at the walls. -/
theorem C90_uniform_noise (hN : ∀ i, 0 < N i) (hL : ∀ i, L i ≠ 0) (c : ℝ) (x y z : ℝ) :
    fieldT L (physical .lower (initializeRB .lower .GC n (rspace N N) (nyquistMask N) (waveGrid N L hN).zero fun _ _ => c)) x y z =
      (1 - x) / 2 + c * (1 - x ^ 2) / 200 := by
  classical
  set zero := (waveGrid N L hN).zero with hz
  let t : Temp (RModes N) (Fin (n + 2) → ℂ) := ⟨fun k => if k = zero then Pi.single 0 ((c / 400 : ℝ) : ℂ) else 0, fun k => if k = zero then 1 else 0, 0⟩
  have hb : HasBC (1, 0) zero t := ⟨by simp [t], fun k hk => by simp [t, hk], by simp [t], fun k hk => by simp [t]⟩
  have hf : ∀ x y z, fieldT L (physical .lower t) x y z = (1 - x) / 2 + c * (1 - x ^ 2) / 200 := fun x y z => by
    rw [fieldT_layered n hN hL _ (physical_bc .lower _ t hb) (fun k hk => by simp only [t, physical]; rw [if_neg hk])]
    have : (physical .lower t).d zero = Pi.single 0 ((c / 400 : ℝ) : ℂ) := by simp [t, physical]
    rw [this, tempPoly, expandC_apply]
    simp only [wallBC, eval_add, eval_finset_sum, eval_smul, eval_mul, eval_C, eval_X, smul_eq_mul]
    rw [Finset.sum_eq_single 0 (fun j _ hj => by simp [Pi.single_eq_of_ne hj]) (by simp)]
    have e : (((phi ((0 : Fin (n + 2)) : ℕ)).map Complex.ofRealHom).eval (x : ℂ)) = ((2 - 2 * x ^ 2 : ℝ) : ℂ) := by
      rw [Fin.val_zero, show phi 0 = 2 - 2 * X ^ 2 by norm_num [phi, Chebyshev.T_two]; ring]; simp
    rw [e, Pi.single_eq_same]
    have e2 : (1 / 2 * (((0 : ℝ) : ℂ) + ((1 : ℝ) : ℂ)) + 1 / 2 * (((0 : ℝ) : ℂ) - ((1 : ℝ) : ℂ)) * (x : ℂ)) = ((1 / 2 - x / 2 : ℝ) : ℂ) := by
      push_cast; ring
    rw [e2, ← Complex.ofReal_mul, ← Complex.ofReal_add, Complex.ofReal_re]
    ring
  have ht := C90_resolved .lower hN hL (fun _ _ => c) t (fun k k' h i => ?_) (fun k hk => ?_) hb (fun j p => ?_)
  · rw [ht, hf]
  · by_cases hk : k = zero
    · rw [show t.d k' = t.d k by rw [hk, (opposite_zero hN k k' h).2 hk]]
      simp only [t, hk, if_true]
      by_cases hi : i = 0
      · subst hi; rw [Pi.single_eq_same, Complex.conj_ofReal]
      · simp [Pi.single_eq_of_ne hi]
    · have hk' : k' ≠ zero := fun e => hk ((opposite_zero hN k k' h).1 e)
      simp [t, hk, hk']
  · have : k ≠ zero := fun e => by rw [e, hz, mask_zero hN] at hk; exact absurd hk (by decide)
    simp [t, this]
  · rw [hf]; ring

/-! ## The other quadrature -/

theorem mass_inv_injective (q : Quad) (v : Fin (n + 2) → ℂ) (h : matC (entry q (n + 4) phi phi 0 (n + 2) (n + 2))⁻¹ v = 0) : v = 0 := by
  have hs : Function.Surjective (matC (entry q (n + 4) phi phi 0 (n + 2) (n + 2))⁻¹) := fun w =>
    ⟨_, mass_inv q (n + 4) (n + 2) phi 2 le_rfl (by omega) degree_phi w⟩
  have hi := LinearMap.injective_iff_surjective.2 hs
  exact hi (by rw [h, map_zero])

theorem phi_one_cos (θ : ℝ) : (phi 1).eval (Real.cos θ) = 4 * Real.cos θ * Real.sin θ ^ 2 := by
  rw [phi, eval_sub]
  have e1 := Chebyshev.T_real_cos θ ((1 : ℕ) : ℤ)
  have e2 := Chebyshev.T_real_cos θ ((1 + 2 : ℕ) : ℤ)
  rw [e1, e2]
  have e3 : (((1 + 2 : ℕ) : ℤ) : ℝ) * θ = 3 * θ := by push_cast; ring
  have e4 : (((1 : ℕ) : ℤ) : ℝ) * θ = θ := by push_cast; ring
  rw [e3, e4, Real.cos_three_mul, Real.sin_sq]
  ring

theorem forward_const_mean (hN : ∀ i, 0 < N i) (a : ℝ) : (rspace N N).forward (fun _ => a) (waveGrid N L hN).zero = a := by
  have h : ∀ x, kernel (waves N) N (waveGrid N L hN).zero x = 1 := fun x => by simp [kernel, waveGrid_waves hN]
  simp only [rspace, dft, h, map_one, mul_one, Finset.sum_const, nsmul_eq_mul]
  have h0 : (N 0 : ℂ) ≠ 0 := by exact_mod_cast (hN 0).ne'
  have h1 : (N 1 : ℂ) ≠ 0 := by exact_mod_cast (hN 1).ne'
  simp
  field_simp

theorem points_apart (m j : ℕ) (hj : j < m + 2) :
    quadPoint .GC (m + 2) j * (quadPoint .GC (m + 2) j - quadPoint .GL (m + 2) j) ≤ 0 ∧
      (j = 0 → 0 < m → quadPoint .GC (m + 2) j * (quadPoint .GC (m + 2) j - quadPoint .GL (m + 2) j) < 0) := by
  have hpi := Real.pi_pos
  set a : ℝ := Real.pi * (j + 1 / 2) / (m + 2 : ℕ) with ha
  set b : ℝ := Real.pi * j / ((m + 2 : ℕ) - 1) with hb
  have hm : (0 : ℝ) < m + 1 := by positivity
  have hm2 : (0 : ℝ) < m + 2 := by positivity
  have ea : a = Real.pi * (j + 1 / 2) / (m + 2) := by rw [ha]; push_cast; ring
  have eb : b = Real.pi * j / (m + 1) := by rw [hb]; push_cast; congr 1; ring
  have hb0 : 0 ≤ b := by rw [eb]; positivity
  have ha0 : 0 < a := by rw [ea]; positivity
  have hjr : (j : ℝ) ≤ m + 1 := by exact_mod_cast (by omega : j ≤ m + 1)
  have hbp : b ≤ Real.pi := by rw [eb, div_le_iff₀ hm]; nlinarith
  have hap : a ≤ Real.pi := by rw [ea, div_le_iff₀ hm2]; nlinarith
  have hlt : 2 * j < m + 1 → Real.cos a * (Real.cos a - Real.cos b) < 0 := fun h => by
    have h' : 2 * (j : ℝ) < m + 1 := by exact_mod_cast h
    have hab : b < a := by
      rw [ea, eb, div_lt_div_iff₀ hm hm2]
      nlinarith
    have h1 : Real.cos a < Real.cos b := Real.cos_lt_cos_of_nonneg_of_le_pi hb0 hap hab
    have h2 : 0 < Real.cos a := Real.cos_pos_of_mem_Ioo ⟨by linarith, by rw [ea, div_lt_iff₀ hm2]; nlinarith⟩
    nlinarith
  refine ⟨?_, fun h0 hm0 => hlt (by omega)⟩
  show Real.cos a * (Real.cos a - Real.cos b) ≤ 0
  rcases lt_trichotomy (2 * j) (m + 1) with h | h | h
  · exact (hlt h).le
  · have h' : 2 * (j : ℝ) = m + 1 := by exact_mod_cast h
    have : a = Real.pi / 2 := by rw [ea, div_eq_iff hm2.ne']; linear_combination Real.pi / 2 * h'
    rw [this, Real.cos_pi_div_two, zero_mul]
  · have h' : (m : ℝ) + 1 < 2 * j := by exact_mod_cast h
    have hab : a < b := by
      rw [ea, eb, div_lt_div_iff₀ hm2 hm]
      nlinarith
    have h1 : Real.cos b < Real.cos a := Real.cos_lt_cos_of_nonneg_of_le_pi ha0.le hbp hab
    have h2 : Real.cos a < 0 := Real.cos_neg_of_pi_div_two_lt_of_lt (by rw [ea, lt_div_iff₀ hm2]; nlinarith) (by linarith)
    nlinarith

/-- C90: with the other quadrature (`params.Dquad = "GL"`) the profile is evaluated at points which are not those of the temperature space, and the start
is not the conduction profile, on no grid. -/
theorem C90_quadrature_false (hN : ∀ i, 0 < N i) :
    (initializeRB .lower .GL n (rspace N N) (nyquistMask N) (waveGrid N L hN).zero 0).d (waveGrid N L hN).zero ≠ 0 := by
  rw [C90_start .lower .GL hN 0]
  set z := (waveGrid N L hN).zero with hz
  intro h
  simp only [maskTemp] at h
  rw [if_pos (by rw [hz]; exact mask_zero hN)] at h
  simp only [forwardRB, forwardWall, LinearMap.comp_apply] at h
  have h1 := congrFun (mass_inv_injective .GC _ h) ⟨1, by omega⟩
  simp only [LinearMap.pi_apply, LinearMap.sum_apply, LinearMap.smul_apply, LinearMap.proj_apply, smul_eq_mul, Pi.zero_apply] at h1
  have hv : ∀ j : Fin (n + 4), (rspace N N).forward (perturbed .GL n 0 j) z -
      (tempPoly ((physical .lower (bcTemp n z)).d z) ((physical .lower (bcTemp n z)).p z) ((physical .lower (bcTemp n z)).q z)).eval
        ((quadPoint .GC (n + 4) j : ℝ) : ℂ) = (((quadPoint .GC (n + 4) j - quadPoint .GL (n + 4) j) / 2 : ℝ) : ℂ) := fun j => by
    have e : perturbed .GL n (0 : Fin (n + 4) → Periodic.Grid N → ℝ) j = fun _ => (1 - quadPoint .GL (n + 4) j) / 2 := by
      funext p
      simp only [perturbed, Pi.zero_apply]
      ring
    rw [e, hz, forward_const_mean hN, ← hz]
    simp [tempPoly, physical, bcTemp]
    ring
  simp only [hv] at h1
  rw [← Complex.ofReal_zero] at h1
  have h2 : ∑ j : Fin (n + 4), quadWeight .GC (n + 4) j * (phi 1).eval (quadPoint .GC (n + 4) j) *
      ((quadPoint .GC (n + 4) j - quadPoint .GL (n + 4) j) / 2) = 0 := by exact_mod_cast h1
  have hterm : ∀ j : Fin (n + 4), quadWeight .GC (n + 4) j * (phi 1).eval (quadPoint .GC (n + 4) j) * ((quadPoint .GC (n + 4) j - quadPoint .GL (n + 4) j) / 2) =
      quadWeight .GC (n + 4) j * 2 * Real.sin (Real.pi * (j + 1 / 2) / (n + 4 : ℕ)) ^ 2 *
        (quadPoint .GC (n + 4) j * (quadPoint .GC (n + 4) j - quadPoint .GL (n + 4) j)) := fun j => by
    have := phi_one_cos (Real.pi * (j + 1 / 2) / (n + 4 : ℕ))
    rw [show quadPoint .GC (n + 4) j = Real.cos (Real.pi * (j + 1 / 2) / (n + 4 : ℕ)) from rfl, this]
    ring
  have hw : ∀ j : ℕ, 0 < quadWeight .GC (n + 4) j := fun j => by
    have := Real.pi_pos
    show 0 < Real.pi / ((n + 4 : ℕ) : ℝ)
    positivity
  have hle : ∀ j : Fin (n + 4), quadWeight .GC (n + 4) j * (phi 1).eval (quadPoint .GC (n + 4) j) *
      ((quadPoint .GC (n + 4) j - quadPoint .GL (n + 4) j) / 2) ≤ 0 := fun j => by
    rw [hterm]
    exact mul_nonpos_of_nonneg_of_nonpos (mul_nonneg (mul_nonneg (hw j).le (by norm_num)) (sq_nonneg _)) (points_apart (n + 2) j j.2).1
  have h0 := (Finset.sum_eq_zero_iff_of_nonpos fun j _ => hle j).1 h2 0 (Finset.mem_univ _)
  rw [hterm] at h0
  have hs : 0 < Real.sin (Real.pi * (((0 : Fin (n + 4)) : ℕ) + 1 / 2) / (n + 4 : ℕ)) := by
    have := Real.pi_pos
    refine Real.sin_pos_of_pos_of_lt_pi ?_ ?_
    · push_cast; positivity
    · rw [div_lt_iff₀ (by push_cast; positivity)]
      have h5 : (((0 : Fin (n + 4)) : ℕ) : ℝ) = 0 := by simp
      rw [h5]
      push_cast
      nlinarith [(Nat.cast_nonneg n : (0 : ℝ) ≤ n)]
  have hneg := (points_apart (n + 2) ((0 : Fin (n + 4)) : ℕ) (by simp)).2 (by simp) (by omega)
  exact absurd h0 (mul_neg_of_pos_of_neg (mul_pos (mul_pos (hw _) (by norm_num)) (pow_pos hs 2)) hneg).ne

end Start

/-! ## The gradient -/

/-- C90: `dTdx_hat` of KMMRK3_RB is the derivative of the temperature if `bc=(1, 0)` is read as upper wall first; otherwise it is wrong by the difference
of the boundary coefficients. -/
theorem C90_gradient {κ : Type*} (o : BcOrder) (q : Quad) (n : ℕ) (t : Temp κ (Fin (n + 2) → ℂ)) (k : κ) :
    expandC (fun j => Chebyshev.T ℝ (j : ℤ)) (dTdxHat q n (t.d k) (t.p k) (t.q k)) =
      derivative (tempPoly ((physical o t).d k) ((physical o t).p k) ((physical o t).q k)) +
        (match o with | .upper => 0 | .lower => Polynomial.C (t.p k - t.q k)) := by
  rw [dTdxHat_eq]
  cases o
  · simp [physical]
  · simp only [physical, tempPoly, derivative_add, derivative_mul, derivative_C, derivative_X]
    simp only [mul_one, zero_mul, zero_add]
    rw [add_assoc, ← Polynomial.C_add]
    congr 2
    ring

section Conv

variable {N M : Fin 2 → ℕ} {L : Fin 2 → ℝ} {n : ℕ} {Q : Type*}

/-- The temperature whose gradient KMMRK3_RB uses. -/
theorem fieldT_shift (hN : ∀ i, 0 < N i) (hL : ∀ i, L i ≠ 0) (t : Temp (RModes N) (Fin (n + 2) → ℂ)) (hb : HasBC (1, 0) (waveGrid N L hN).zero t) (x y z : ℝ) :
    fieldT L t x y z = fieldT L (physical .lower t) x y z + x := by
  have e : ∀ k, tempPoly (t.d k) (t.p k) (t.q k) = tempPoly (t.d k) (t.q k) (t.p k) + (if k = (waveGrid N L hN).zero then X else 0) := fun k => by
    by_cases hk : k = (waveGrid N L hN).zero
    · rw [hk, hb.1, hb.2.2.1, if_pos rfl]
      simp only [tempPoly]
      norm_num
      have : (Polynomial.C (1 / 2 : ℂ)) + Polynomial.C (1 / 2 : ℂ) = 1 := by rw [← Polynomial.C_add]; norm_num
      linear_combination (X : ℂ[X]) * this
    · rw [hb.2.1 k hk, hb.2.2.2 k hk, if_neg hk, add_zero]
  have h1 := field_mean hN hL (fun k => if k = (waveGrid N L hN).zero then (X : ℂ[X]) else 0) (fun k hk => if_neg hk) x y z
  simp only [if_true, eval_X, Complex.ofReal_re] at h1
  rw [fieldT, fieldT]
  simp only [e, fieldOf] at h1 ⊢
  refine (field_add _ _ _ _ _ _ _ _).trans ?_
  rw [h1]
  rfl

/-- C90: with the lower wall first, `StandardRBConvection` advects `T + x` instead of `T`. -/
theorem C90_convection_lower (q : Quad) (W : Wall (Fin n → ℂ) (Fin (n + 2) → ℂ) (Fin (n + 4) → ℂ) Q)
    (hD : W.fD = expandC phi) (hC : W.fC = expandC fun j => Chebyshev.T ℝ (j : ℤ)) (hN : ∀ i, 0 < N i) (hL : ∀ i, L i ≠ 0)
    (U : Vel (RModes N) (Fin n → ℂ) (Fin (n + 2) → ℂ)) (t : Temp (RModes N) (Fin (n + 2) → ℂ)) (hb : HasBC (1, 0) (waveGrid N L hN).zero t)
    (k : RModes N) :
    standardRB q n W (rspace N M) (waveGrid N L hN) U t k =
      (chebMats q n).BDD (transform W L N M (advect (fieldU W L U) (fieldV W L U) (fieldW W L U)
        fun x y z => fieldT L (physical .lower t) x y z + x) k) := by
  rw [C79_convection q n W hD hC hN hL U t hb]
  congr 4
  funext x y z
  exact fieldT_shift hN hL t hb x y z

end Conv

/-! ## KMM_RB -/

section Runs

variable {κ P : Type*} [DecidableEq κ] {n : ℕ}

/-- The state with the boundary coefficients in the order of the walls. -/
def physicalSt {B D : Type*} (o : BcOrder) (s : RBSt κ B D) : RBSt κ B D :=
  { s with phi := physical o s.phi, phi0 := physical o s.phi0, phi1 := physical o s.phi1 }

theorem physical_d {D : Type*} (o : BcOrder) (t : Temp κ D) : (physical o t).d = t.d := by cases o <;> rfl

theorem physical_ab {D : Type*} [AddCommGroup D] [Module ℂ D] (o : BcOrder) (t t' : Temp κ D) : phiAb (physical o t) (physical o t') = physical o (phiAb t t') := by
  cases o <;> rfl

theorem physical_mk {D : Type*} (o : BcOrder) (d d' : κ → D) (p q p' q' : κ → ℂ) (h : physical o ⟨d, p, q⟩ = ⟨d, p', q'⟩) :
    physical o (⟨d', p, q⟩ : Temp κ D) = ⟨d', p', q'⟩ := by
  have e1 := congrArg Temp.p h
  have e2 := congrArg Temp.q h
  cases o <;> simp_all [physical]

theorem tick_physical {B D : Type*} [AddCommGroup B] [Module ℂ B] [AddCommGroup D] [Module ℂ D] (o : BcOrder) (r : RBCtx κ B D)
    (prodB : Temp κ D → (κ → B) → κ → B) (prodD : Temp κ D → (κ → D) → κ → D) (bcp bcq : κ → ℂ)
    (hB : ∀ t, r.prodB t = prodB (physical o t)) (hD : ∀ t, r.prodD t = prodD (physical o t)) (hbc : physical o (⟨0, r.bcp, r.bcq⟩ : Temp κ D) = ⟨0, bcp, bcq⟩)
    (la : LA κ B D) (solveT : κ → D → D) (s : RBSt κ B D)
    (hb : buoyancy r (phiAb s.phi0 s.phi1) = buoyancy r (physical o (phiAb s.phi0 s.phi1))) :
    physicalSt o (tickRB r la solveT s) = tickRB { r with prodB := prodB, prodD := prodD, bcp := bcp, bcq := bcq } la solveT (physicalSt o s) := by
  set r' : RBCtx κ B D := { r with prodB := prodB, prodD := prodD, bcp := bcp, bcq := bcq } with hr'
  have hbu : ∀ t, buoyancy r' t = buoyancy r t := fun _ => rfl
  have hdiv : ∀ U t, divRB r' U (physical o t) = divRB r U t := fun U t => by
    funext k
    simp only [divRB, hB, hD]
    rfl
  have hrhs : computeRHSRB r' (physicalSt o s) = (physicalSt o (computeRHSRB r s).1, (computeRHSRB r s).2) := by
    have e1 : phiAb (physicalSt o s).phi0 (physicalSt o s).phi1 = physical o (phiAb s.phi0 s.phi1) := physical_ab o _ _
    have e2 : (physicalSt o s).phi0.d = s.phi0.d := physical_d o _
    unfold computeRHSRB
    rw [e1, e2]
    dsimp only
    rw [hdiv, hbu, ← hb]
    rfl
  have e : physicalSt o (integrateRB r la solveT s) = integrateRB r' la solveT (physicalSt o s) := by
    unfold integrateRB
    rw [hrhs]
    unfold solveLinearRB physicalSt
    simp only [physical_mk o 0 _ _ _ bcp bcq hbc]
    rfl
  unfold tickRB
  rw [← e]
  rfl

/-- C90: whatever the order, a run of KMM_RB is, wall by wall, a run with the wall temperatures of that order, in which every formula refers to the
temperature itself: the two boundary rows of the buoyancy, which are written for the upper wall first, have no effect. -/
theorem C90_kmm_rb (o : BcOrder) (q qT : Quad) (c : Ctx κ (Fin n → ℂ) (Fin (n + 2) → ℂ)) (kappa : ℝ) (T : Space κ P) (hz : c.G.Ksq c.G.zero = 0)
    (la : LA κ (Fin n → ℂ) (Fin (n + 2) → ℂ)) (solveT : κ → (Fin (n + 2) → ℂ) → Fin (n + 2) → ℂ) (s0 : RBSt κ (Fin n → ℂ) (Fin (n + 2) → ℂ))
    (h0 : HasBC (1, 0) c.G.zero s0.phi) (hp0 : s0.phi0 = s0.phi) (hp1 : s0.phi1 = s0.phi) (m : ℕ) :
    physicalSt o ((tickRB (codeRB o q qT n c kappa T) la solveT)^[m] s0) =
      (tickRB (chebRB (wallBC o) q qT n c kappa (prodBwall q n T) (prodDwall q n T)) la solveT)^[m] (physicalSt o s0) := by
  have hbuoy : ∀ t, HasBC (1, 0) c.G.zero t → buoyancy (codeRB o q qT n c kappa T) t = buoyancy (codeRB o q qT n c kappa T) (physical o t) := fun t ht => by
    funext k
    simp only [buoyancy, codeRB, chebRB, physical_d]
    by_cases hk : k = c.G.zero
    · rw [hk, hz]; simp
    · have h1 : (physical o t).p k = 0 := by cases o <;> simp [physical, ht.2.1 k hk, ht.2.2.2 k hk]
      have h2 : (physical o t).q k = 0 := by cases o <;> simp [physical, ht.2.1 k hk, ht.2.2.2 k hk]
      rw [h1, h2, ht.2.1 k hk, ht.2.2.2 k hk]
  have hbc : physical o (⟨0, (codeRB o q qT n c kappa T).bcp, (codeRB o q qT n c kappa T).bcq⟩ : Temp κ (Fin (n + 2) → ℂ)) =
      ⟨0, fun k => if k = c.G.zero then ((wallBC o).1 : ℂ) else 0, fun k => if k = c.G.zero then ((wallBC o).2 : ℂ) else 0⟩ := by
    cases o <;> simp [physical, codeRB, chebRB, wallBC]
  have hcode : ∀ d : κ → Fin (n + 2) → ℂ, HasBC (1, 0) c.G.zero ⟨d, (codeRB o q qT n c kappa T).bcp, (codeRB o q qT n c kappa T).bcq⟩ := fun d =>
    ⟨by simp [codeRB, chebRB], fun k hk => by simp [codeRB, chebRB, hk], by simp [codeRB, chebRB], fun k hk => by simp [codeRB, chebRB]⟩
  have inv : ∀ m, HasBC (1, 0) c.G.zero ((tickRB (codeRB o q qT n c kappa T) la solveT)^[m] s0).phi0 ∧
      HasBC (1, 0) c.G.zero ((tickRB (codeRB o q qT n c kappa T) la solveT)^[m] s0).phi1 := fun m => by
    induction m with
    | zero => exact ⟨by rw [Function.iterate_zero_apply, hp0]; exact h0, by rw [Function.iterate_zero_apply, hp1]; exact h0⟩
    | succ m ih =>
      rw [Function.iterate_succ_apply']
      exact ⟨hcode _, ih.1⟩
  induction m with
  | zero => rfl
  | succ m ih =>
    rw [Function.iterate_succ_apply', Function.iterate_succ_apply', ← ih]
    have hA : HasBC (1, 0) c.G.zero (phiAb ((tickRB (codeRB o q qT n c kappa T) la solveT)^[m] s0).phi0
        ((tickRB (codeRB o q qT n c kappa T) la solveT)^[m] s0).phi1) := by rw [phiAb_eq]; exact hasBC_ab2 _ _ _ (inv m).1 (inv m).2
    exact tick_physical o (codeRB o q qT n c kappa T) (prodBwall q n T) (prodDwall q n T) _ _ (fun _ => rfl) (fun _ => rfl) hbc la solveT _ (hbuoy _ hA)

end Runs

/-! ## The demo -/

section Demo

variable {N M : Fin 2 → ℕ} {L : Fin 2 → ℝ} {n : ℕ} {Q : Type*}

/-- The property is false: whichever wall `bc=(1, 0)` names first, either the profile of `initialize` is not the conduction state or the gradient of
KMMRK3_RB is not that of the temperature. -/
theorem C90_order_false (o : BcOrder) (q : Quad) (hN : ∀ i, 0 < N i) (hL : ∀ i, L i ≠ 0) :
    let t := initializeRB o .GC n (rspace N N) (nyquistMask N) (waveGrid N L hN).zero 0
    ¬ ((∀ x y z, fieldT L (physical o t) x y z = (1 - x) / 2) ∧
      ∀ k, expandC (fun j => Chebyshev.T ℝ (j : ℤ)) (dTdxHat q n (t.d k) (t.p k) (t.q k)) =
        derivative (tempPoly ((physical o t).d k) ((physical o t).p k) ((physical o t).q k))) := by
  intro t h
  have hb := C90_walls (n := n) o .GC hN hL 0
  cases o
  · have h1 := (hb.2.2.2 0 0).1
    have h2 := h.1 1 0 0
    rw [show fieldT L (physical .upper t) 1 0 0 = 1 from h1] at h2
    norm_num at h2
  · have h1 := h.2 (waveGrid N L hN).zero
    rw [C90_gradient .lower] at h1
    have h2 : t.p (waveGrid N L hN).zero - t.q (waveGrid N L hN).zero = 1 := by
      rw [show t.p _ = _ from hb.1.1, show t.q _ = _ from hb.1.2.2.1]; norm_num
    simp [h2] at h1

variable (hN : ∀ i, 0 < N i) (hL : ∀ i, L i ≠ 0) (hNM : ∀ i, N i ≤ M i)
  (c : Ctx (RModes N) (Fin n → ℂ) (Fin (n + 2) → ℂ)) (hG : c.G = waveGrid N L hN)
  (W : Wall (Fin n → ℂ) (Fin (n + 2) → ℂ) (Fin (n + 4) → ℂ) Q) (kind : ConvKind) (hconv : c.conv = convection kind W (rspace N M) c.G) (hS : c.Sk = 0)
  (kappa : ℝ)
include hL hNM hG hconv hS

/-- C90: started without noise, KMM_RB with the default quadrature and the lower wall first stays at rest with the conduction profile. -/
theorem C90_steady (la : LA (RModes N) (Fin n → ℂ) (Fin (n + 2) → ℂ)) (solveT : RModes N → (Fin (n + 2) → ℂ) → Fin (n + 2) → ℂ) (hl : ZeroLA la solveT)
    (qT : Quad) (m : ℕ) :
    let s := (tickRB (codeRB .lower .GC qT n c kappa (rspace N M)) la solveT)^[m]
      (startRB (initializeRB .lower .GC n (rspace N N) (nyquistMask N) c.G.zero 0))
    s.s.U = ⟨0, 0, 0⟩ ∧ ∀ x y z, fieldT L (physical .lower s.phi) x y z = (1 - x) / 2 := by
  intro s
  have hflat : Laminar.Flat (rspace N M) c.G.zero := by rw [hG]; exact waveGrid_flat hN hNM
  have hq := quiet_cheb (bc := (1, 0)) n hN hL hNM c hG W kind kappa (fun t u => prodBwall .GC n (rspace N M) (physical .lower t) u)
    (fun t v => prodDwall .GC n (rspace N M) (physical .lower t) v) hS hconv .GC qT
  set t := initializeRB .lower .GC n (rspace N N) (nyquistMask N) c.G.zero 0 with ht
  have hb : HasBC (1, 0) c.G.zero t := by
    rw [ht, hG]
    exact (C90_walls .lower .GC hN hL 0).1
  have hd : t.d = 0 := by
    rw [ht, hG]
    exact (C90_conduction hN hL).1
  have e : t = ⟨0, (codeRB .lower .GC qT n c kappa (rspace N M)).bcp, (codeRB .lower .GC qT n c kappa (rspace N M)).bcq⟩ := by
    have h2 := layered_start (bc := (1, 0)) (q := .GC) (qT := qT) n c kappa (fun t u => prodBwall .GC n (rspace N M) (physical .lower t) u)
      (fun t v => prodDwall .GC n (rspace N M) (physical .lower t) v) ⟨0, 0, 0⟩ 0 t rfl rfl hb (fun k _ => by rw [hd]; rfl)
    ext k
    · rw [hd]
    · exact congrFun h2.p k
    · exact congrFun h2.q k
  have h := C64_kmm_rb (codeRB .lower .GC qT n c kappa (rspace N M)) la solveT hq hl
    (fun T k => congrFun (prodBwall_rest .GC n hflat (physical .lower T)) k) (fun T k => congrFun (prodDwall_rest .GC n hflat (physical .lower T)) k)
    (startRB t) ⟨rfl, rfl, e⟩ rfl rfl rfl rfl m
  refine ⟨h.1, fun x y z => ?_⟩
  have hs : s.phi = t := h.2.2.trans e.symm
  rw [hs, fieldT_conducting .lower hN hL t (by rw [← hG]; exact hb) hd]
  simp only [wallBC]
  ring

end Demo

/-- The grid of the theorems, e.g. sixteen points across the layer and a 4 x 6 plane with sides 2π. -/
example (r : Fin 16 → Periodic.Grid ![4, 6] → ℝ) :=
  C90_walls (n := 12) (N := ![4, 6]) (L := fun _ => 2 * Real.pi) .lower .GC (by decide) (fun _ => by positivity) r

end SpectralDNS.Channel

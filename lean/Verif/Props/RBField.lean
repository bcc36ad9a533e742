import Verif.Props.GalerkinEq
import Verif.Props.RayleighBenard
import Verif.Model.RBCheb

/-!
# C79: the Rayleigh-Benard solvers in physical space
-/

namespace SpectralDNS.Channel

open Polynomial Periodic Spec.Field Spec.Channel

variable {N : Fin 2 → ℕ} {L : Fin 2 → ℝ}

/-- The temperature as a function. -/
noncomputable def fieldT {n : ℕ} (L : Fin 2 → ℝ) (T : Temp (RModes N) (Fin (n + 2) → ℂ)) : Scalar :=
  fieldOf N L fun k => tempPoly (T.d k) (T.p k) (T.q k)

/-- The boundary coefficients are those of the wall temperatures `bc`. -/
def HasBC {κ D : Type*} (bc : ℝ × ℝ) (zero : κ) (T : Temp κ D) : Prop :=
  T.p zero = bc.1 ∧ (∀ k, k ≠ zero → T.p k = 0) ∧ T.q zero = bc.2 ∧ ∀ k, k ≠ zero → T.q k = 0

variable {bc : ℝ × ℝ}

theorem hasBC_ab2 {κ D : Type*} [AddCommGroup D] [Module ℂ D] (zero : κ) (T T' : Temp κ D) (h : HasBC bc zero T) (h' : HasBC bc zero T') :
    HasBC bc zero (ab2T T T') := by
  obtain ⟨a, b, c⟩ := h
  obtain ⟨a', b', c'⟩ := h'
  refine ⟨?_, fun k hk => ?_, ?_, fun k hk => ?_⟩
  · simp only [ab2T, a, a']; ring
  · simp [ab2T, b k hk, b' k hk]
  · simp only [ab2T, c.1, c'.1]; ring
  · simp [ab2T, c.2 k hk, c'.2 k hk]

theorem waves_zero (hN : ∀ i, 0 < N i) (hL : ∀ i, L i ≠ 0) :
    scaledWaves N L 0 (waveGrid N L hN).zero = 0 ∧ scaledWaves N L 1 (waveGrid N L hN).zero = 0 := by
  have h' : scaledWaves N L 0 (waveGrid N L hN).zero * scaledWaves N L 0 (waveGrid N L hN).zero
      + scaledWaves N L 1 (waveGrid N L hN).zero * scaledWaves N L 1 (waveGrid N L hN).zero = 0 := (waveGrid_zero N L hN hL _).2 rfl
  constructor <;> nlinarith [mul_self_nonneg (scaledWaves N L 0 (waveGrid N L hN).zero), mul_self_nonneg (scaledWaves N L 1 (waveGrid N L hN).zero)]

/-- The part of the temperature which carries the boundary values does not vary along the walls. -/
theorem linear_zero {n : ℕ} (hN : ∀ i, 0 < N i) (hL : ∀ i, L i ≠ 0) (T : Temp (RModes N) (Fin (n + 2) → ℂ))
    (hT : HasBC bc (waveGrid N L hN).zero T) (i : Fin 2) (k : RModes N) :
    ((scaledWaves N L i k : ℝ) : ℂ) • tempPoly (T.d k) (T.p k) (T.q k) = ((scaledWaves N L i k : ℝ) : ℂ) • expandC phi (T.d k) := by
  by_cases hk : k = (waveGrid N L hN).zero
  · have : scaledWaves N L i k = 0 := by
      rw [hk]
      have := waves_zero hN hL
      fin_cases i
      · exact this.1
      · exact this.2
    rw [this]; simp
  · rw [tempPoly, hT.2.1 k hk, hT.2.2.2 k hk]; simp

theorem rweight_zero (hN : ∀ i, 0 < N i) : rweight N (waveGrid N L hN).zero = 1 := by
  have h : waves N 1 (waveGrid N L hN).zero = 0 := by
    have h0 : (((waveGrid N L hN).zero 1 : Fin _) : ℕ) = 0 := rfl
    have := hN 1
    simp only [waves, h0]
    split_ifs <;> simp
  exact if_pos (Or.inl h)

theorem tempPoly_wall {n : ℕ} (d : Fin (n + 2) → ℂ) (p q : ℂ) : (tempPoly d p q).eval 1 = p ∧ (tempPoly d p q).eval (-1) = q := by
  have h1 : (expandC phi d).eval 1 = 0 := by
    have := eval_wall phi d 1 fun j => (phi_walls j).1
    simpa using this
  have h2 : (expandC phi d).eval (-1) = 0 := by
    have := eval_wall phi d (-1) fun j => (phi_walls j).2
    simpa using this
  constructor
  · simp [tempPoly, h1]; ring
  · simp [tempPoly, h2]; ring

theorem wall_temperatures {n : ℕ} (hN : ∀ i, 0 < N i) (hL : ∀ i, L i ≠ 0) (T : Temp (RModes N) (Fin (n + 2) → ℂ))
    (hT : HasBC bc (waveGrid N L hN).zero T) : WallTemperatures bc (fieldT L T) := by
  obtain ⟨hz0, hz1⟩ := waves_zero hN hL
  intro y z
  constructor
  · simp only [fieldT, fieldOf, field, Complex.ofReal_one, (tempPoly_wall _ _ _).1]
    rw [Finset.sum_eq_single (waveGrid N L hN).zero]
    · rw [hT.1, rweight_zero hN, hz0, hz1]; simp
    · intro k _ hk
      rw [hT.2.1 k hk]; simp
    · simp
  · simp only [fieldT, fieldOf, field, Complex.ofReal_neg, Complex.ofReal_one, (tempPoly_wall _ _ _).2]
    rw [Finset.sum_eq_single (waveGrid N L hN).zero]
    · rw [hT.2.2.1, rweight_zero hN, hz0, hz1]; simp
    · intro k _ hk
      rw [hT.2.2.2 k hk]; simp
    · simp

/-! ## The convection of the temperature -/

theorem dTdxHat_eq (q : Quad) (n : ℕ) (d : Fin (n + 2) → ℂ) (p r : ℂ) :
    expandC (fun j => Chebyshev.T ℝ (j : ℤ)) (dTdxHat q n d p r) = derivative (tempPoly d p r) := by
  obtain ⟨S, hS⟩ := exists_expandC (fun j => derivative (phi j)) (fun j => Chebyshev.T ℝ (j : ℤ)) (a := n + 2) (b := n + 4) fun j =>
    exists_cheb (n + 4) _ (by
      refine (degree_derivative_le).trans_lt ?_
      rw [degree_phi]
      exact_mod_cast (by have := j.2; omega : (j : ℕ) + 2 < n + 4))
  have h1 : expandC (fun j => Chebyshev.T ℝ (j : ℤ)) (S d) = derivative (expandC phi d) := by rw [hS, expandC_derivative]
  set e : Fin (n + 4) → ℂ := fun i => if (i : ℕ) = 0 then 1 / 2 * (p - r) else 0 with he
  have h2 : expandC (fun j => Chebyshev.T ℝ (j : ℤ)) e = Polynomial.C (1 / 2 * (p - r)) := by
    rw [expandC_apply, Finset.sum_eq_single 0]
    · simp [he]; rw [← Polynomial.C_1, Polynomial.smul_C]; simp
    · intro j _ hj
      have : (j : ℕ) ≠ 0 := fun h => hj (Fin.ext h)
      rw [he]; simp only [if_neg this, zero_smul]
    · simp
  have h3 : derivative (tempPoly d p r) = expandC (fun j => Chebyshev.T ℝ (j : ℤ)) (S d + e) := by
    rw [map_add, h1, h2, tempPoly]; simp
  rw [h3]
  congr 1
  have h4 := mass_inv q (n + 4) (n + 4) (fun j => Chebyshev.T ℝ (j : ℤ)) 0 le_rfl (by omega) degree_cheb (S d + e)
  rw [← h4, dTdxHat]
  refine congrArg _ ?_
  rw [entry_test, Function.iterate_one, map_add, map_add, h1]
  congr 1
  have h5 := entry_test (a := n + 4) q (n + 4) (n + 4) 0 (fun j => Chebyshev.T ℝ (j : ℤ)) (fun j => Chebyshev.T ℝ (j : ℤ)) e
  rw [Function.iterate_zero, id] at h5
  rw [← h5]
  funext i
  have h6 : matC (entry q (n + 4) (fun j => Chebyshev.T ℝ (j : ℤ)) (fun j => Chebyshev.T ℝ (j : ℤ)) 0 (n + 4) (n + 4)) e i =
      ((entry q (n + 4) (fun j => Chebyshev.T ℝ (j : ℤ)) (fun j => Chebyshev.T ℝ (j : ℤ)) 0 (n + 4) (n + 4) i 0 : ℝ) : ℂ) * (1 / 2 * (p - r)) := by
    rw [matC, Matrix.toLin'_apply, Matrix.mulVec, dotProduct, Finset.sum_eq_single 0]
    · simp [he]
    · intro j _ hj
      have : (j : ℕ) ≠ 0 := fun h => hj (Fin.ext h)
      rw [he]; simp only [if_neg this, mul_zero]
    · simp
  rw [h6]
  by_cases hi : (i : ℕ) = 0
  · have : i = 0 := Fin.ext hi
    subst this
    rw [if_pos hi]
    show 0.5 * ((quadrature q (n + 4) (Chebyshev.T ℝ ((0 : ℕ) : ℤ) * Chebyshev.T ℝ ((0 : ℕ) : ℤ)) : ℝ) : ℂ) * (p - r) =
      ((quadrature q (n + 4) (Chebyshev.T ℝ ((0 : ℕ) : ℤ) * Chebyshev.T ℝ ((0 : ℕ) : ℤ)) : ℝ) : ℂ) * (1 / 2 * (p - r))
    ring
  · have h7 : entry q (n + 4) (fun j => Chebyshev.T ℝ (j : ℤ)) (fun j => Chebyshev.T ℝ (j : ℤ)) 0 (n + 4) (n + 4) i 0 = 0 := by
      have := quad_TT q (n + 2) 0 i (by omega) (by have := i.2; omega)
      rw [if_neg (fun h => hi h.symm)] at this
      exact this
    rw [if_neg hi, h7]; simp

variable {M : Fin 2 → ℕ} {Q : Type*}

/-- C79: `StandardRBConvection` is the mass matrix times the transform of `(u . grad) T` as a function, whatever points `W` uses. -/
theorem C79_convection (q : Quad) (n : ℕ) (W : Wall (Fin n → ℂ) (Fin (n + 2) → ℂ) (Fin (n + 4) → ℂ) Q)
    (hD : W.fD = expandC phi) (hC : W.fC = expandC fun j => Chebyshev.T ℝ (j : ℤ)) (hN : ∀ i, 0 < N i) (hL : ∀ i, L i ≠ 0)
    (U : Vel (RModes N) (Fin n → ℂ) (Fin (n + 2) → ℂ)) (T : Temp (RModes N) (Fin (n + 2) → ℂ)) (hT : HasBC bc (waveGrid N L hN).zero T)
    (k : RModes N) :
    standardRB q n W (rspace N M) (waveGrid N L hN) U T k =
      (chebMats q n).BDD (transform W L N M (advect (fieldU W L U) (fieldV W L U) (fieldW W L U) (fieldT L T)) k) := by
  simp only [standardRB, transform]
  congr 2
  have hx : bwdC W (rspace N M) (fun k => dTdxHat q n (T.d k) (T.p k) (T.q k)) = sample L M W.x (dx (fieldT L T)) := by
    rw [bwdC, hC]
    simp only [dTdxHat_eq]
    rw [synth_eq L hL, fieldT, fieldOf, fieldOf, dx_field]
  have hy : bwdD W (rspace N M) (ik (waveGrid N L hN).K1 T.d) = sample L M W.x (dy (fieldT L T)) := by
    rw [bwdD, hD, synth_eq L hL, fieldT, fieldOf, fieldOf, dy_field]
    congr 2
    funext k
    show expandC phi ((Complex.I * _) • _) = _
    rw [map_smul, mul_smul, mul_smul, linear_zero hN hL T hT]; rfl
  have hz : bwdD W (rspace N M) (ik (waveGrid N L hN).K2 T.d) = sample L M W.x (dz (fieldT L T)) := by
    rw [bwdD, hD, synth_eq L hL, fieldT, fieldOf, fieldOf, dz_field]
    congr 2
    funext k
    show expandC phi ((Complex.I * _) • _) = _
    rw [map_smul, mul_smul, mul_smul, linear_zero hN hL T hT]; rfl
  rw [hx, hy, hz]
  simp only [velocity, bwdB, bwdD, synth_eq L hL]
  rfl

/-! ## The equations -/

/-- The Boussinesq equations of a step of length `tau` in physical space: those of `WeakStep` with the buoyancy of the temperature `T` added to
the wall-normal force, and the heat equation with convection `Q` tested with the first `m` functions. -/
def WeakStepRB (q : Quad) (n m : ℕ) (L : Fin 2 → ℝ) (nu kappa tau : ℝ) (zero : RModes N) (S : ℂ[X]) (h : Vec (RModes N) (Fin (n + 2) → ℂ))
    (T : Temp (RModes N) (Fin (n + 2) → ℂ)) (Q : Scalar)
    (U : Vel (RModes N) (Fin n → ℂ) (Fin (n + 2) → ℂ)) (g : RModes N → Fin (n + 2) → ℂ) (phi0 : Temp (RModes N) (Fin (n + 2) → ℂ))
    (U' : Vel (RModes N) (Fin n → ℂ) (Fin (n + 2) → ℂ)) (g' : RModes N → Fin (n + 2) → ℂ) (phi' : Temp (RModes N) (Fin (n + 2) → ℂ)) : Prop :=
  let x := fun j : Fin (n + 4) => quadPoint q (n + 4) j
  let w := fun j : Fin (n + 4) => quadWeight q (n + 4) j
  let h0 := fieldD q n L h.c0
  let h1 := fieldD q n L h.c1
  let h2 := fieldD q n L h.c2
  let fD := (chebWall q n).fD
  Orthogonal x w (fun i : Fin n => psi i) (residualU nu tau (fun x y z => h0 x y z + fieldT L T x y z) h1 h2
    (fieldU (chebWall q n) L U) (fieldU (chebWall q n) L U')) ∧
  Orthogonal x w (fun i : Fin (n + 2) => phi i) (residualG nu tau h0 h1 h2 (fieldD q n L g) (fieldD q n L g')) ∧
  OrthogonalP x w (fun i : Fin (n + 2) => phi i) (residualMean nu tau (fD (h.c1 zero)) S (fD (U.v zero)) (fD (U'.v zero))) ∧
  OrthogonalP x w (fun i : Fin (n + 2) => phi i) (residualMean nu tau (fD (h.c2 zero)) 0 (fD (U.w zero)) (fD (U'.w zero))) ∧
  Orthogonal x w (fun i : Fin m => phi i) (residualT kappa tau Q (fieldT L phi0) (fieldT L phi'))

/-- `d²/dx² - k²`. -/
noncomputable def lapPoly (N : Fin 2 → ℕ) (L : Fin 2 → ℝ) (k : RModes N) (p : ℂ[X]) : ℂ[X] :=
  derivative^[2] p - ((scaledWaves N L 0 k * scaledWaves N L 0 k + scaledWaves N L 1 k * scaledWaves N L 1 k : ℝ) : ℂ) • p

theorem laplacian_of (a : RModes N → ℂ[X]) : laplacian (fieldOf N L a) = fieldOf N L fun k => lapPoly N L k (a k) := laplacian_field _ _ _ _

theorem lapPoly_temp {n : ℕ} (hN : ∀ i, 0 < N i) (hL : ∀ i, L i ≠ 0) (T : Temp (RModes N) (Fin (n + 2) → ℂ))
    (hT : HasBC bc (waveGrid N L hN).zero T) (k : RModes N) :
    lapPoly N L k (tempPoly (T.d k) (T.p k) (T.q k)) = lapPoly N L k (expandC phi (T.d k)) := by
  have h1 := linear_zero hN hL T hT 0 k
  have h2 := linear_zero hN hL T hT 1 k
  have h3 : derivative^[2] (tempPoly (T.d k) (T.p k) (T.q k)) = derivative^[2] (expandC phi (T.d k)) := by
    show derivative (derivative _) = derivative (derivative _)
    rw [tempPoly]
    simp
  unfold lapPoly
  rw [Complex.ofReal_add, Complex.ofReal_mul, Complex.ofReal_mul, add_smul, add_smul, mul_smul, mul_smul, h1, h2, h3, mul_smul, mul_smul]

theorem residualT_field {n : ℕ} (hN : ∀ i, 0 < N i) (hL : ∀ i, L i ≠ 0) (kappa tau : ℝ)
    (Q : RModes N → ℂ[X]) (T T' : Temp (RModes N) (Fin (n + 2) → ℂ)) (hT : HasBC bc (waveGrid N L hN).zero T)
    (hT' : HasBC bc (waveGrid N L hN).zero T') :
    residualT kappa tau (fieldOf N L Q) (fieldT L T) (fieldT L T') = fieldOf N L fun k =>
      expandC phi (T'.d k) - expandC phi (T.d k) - ((tau : ℝ) : ℂ) • (((kappa / 2 : ℝ) : ℂ) • (lapPoly N L k (expandC phi (T.d k))
          + lapPoly N L k (expandC phi (T'.d k))) - Q k) := by
  funext x y z
  unfold residualT fieldT
  rw [laplacian_of, laplacian_of]
  unfold fieldOf
  rw [← field_sub, ← field_add, field_smul, ← field_sub, field_smul, ← field_sub]
  refine congrArg (fun a => field _ _ _ a x y z) (funext fun k => ?_)
  have hp : T'.p k = T.p k := by
    by_cases hk : k = (waveGrid N L hN).zero
    · rw [hk, hT.1, hT'.1]
    · rw [hT.2.1 k hk, hT'.2.1 k hk]
  have hq : T'.q k = T.q k := by
    by_cases hk : k = (waveGrid N L hN).zero
    · rw [hk, hT.2.2.1, hT'.2.2.1]
    · rw [hT.2.2.2 k hk, hT'.2.2.2 k hk]
  have hl' : tempPoly (T'.d k) (T'.p k) (T'.q k) - tempPoly (T.d k) (T.p k) (T.q k) = expandC phi (T'.d k) - expandC phi (T.d k) := by
    rw [hp, hq, tempPoly, tempPoly]; ring
  rw [lapPoly_temp hN hL T hT, lapPoly_temp hN hL T' hT', hl']

/-- The heat equation from its rows. -/
theorem heat_of_rows (n m : ℕ) (hm : m ≤ n + 2) (q : Quad) (hN : ∀ i, 0 < N i) (hL : ∀ i, L i ≠ 0) (kappa tau : ℝ)
    (Q : RModes N → ℂ[X]) (T T' : Temp (RModes N) (Fin (n + 2) → ℂ)) (hT : HasBC bc (waveGrid N L hN).zero T)
    (hT' : HasBC bc (waveGrid N L hN).zero T')
    (h : ∀ (k : RModes N) (i : Fin (n + 2)), (i : ℕ) < m →
      (let M := (chebMats q n).BDD; let A := lap M (chebMats q n).ADD ((waveGrid N L hN).Ksq k)
       M (T'.d k) - ((kappa * tau / 2 : ℝ) : ℂ) • A (T'.d k)
        - (M (T.d k) + ((kappa * tau / 2 : ℝ) : ℂ) • A (T.d k) + (tau : ℂ) • -(scalarProduct q (n + 4) phi (Q k) : Fin (n + 2) → ℂ))) i = 0) :
    Orthogonal (fun j : Fin (n + 4) => quadPoint q (n + 4) j) (fun j : Fin (n + 4) => quadWeight q (n + 4) j) (fun i : Fin m => phi i)
      (residualT kappa tau (fieldOf N L Q) (fieldT L T) (fieldT L T')) := by
  have tD0 : ∀ v, (chebMats q n).BDD v = scalarProduct q (n + 4) phi (expandC phi v) := fun v => entry_test q (n + 4) (n + 2) 0 phi phi v
  have tD2 : ∀ v, (chebMats q n).ADD v = scalarProduct q (n + 4) phi (derivative^[2] (expandC phi v)) := fun v => entry_test q (n + 4) (n + 2) 2 phi phi v
  have e := residualT_field hN hL kappa tau Q T T' hT hT'
  rw [e]
  apply orth_of_scalarProduct
  intro k
  funext i
  have h1 := h k ⟨i, by omega⟩ i.2
  have hq : (waveGrid N L hN).Ksq k = scaledWaves N L 0 k * scaledWaves N L 0 k + scaledWaves N L 1 k * scaledWaves N L 1 k := rfl
  simp only [lap, LinearMap.sub_apply, LinearMap.smul_apply, tD0, tD2, hq] at h1
  refine Eq.trans ?_ h1
  unfold lapPoly
  have hi : ∀ p : ℂ[X], (scalarProduct q (n + 4) phi p : Fin m → ℂ) i = (scalarProduct q (n + 4) phi p : Fin (n + 2) → ℂ) ⟨i, by omega⟩ := fun p => by
    rw [scalarProduct_apply, scalarProduct_apply]
  simp only [hi, map_sub, map_add, map_smul, Pi.sub_apply, Pi.add_apply, Pi.smul_apply, Pi.neg_apply, smul_eq_mul]
  push_cast
  ring

/-- The momentum equations with buoyancy. -/
theorem weak_of_boussinesq (q : Quad) (n : ℕ) (hN : ∀ i, 0 < N i) (hL : ∀ i, L i ≠ 0) (r : RBCtx (RModes N) (Fin n → ℂ) (Fin (n + 2) → ℂ))
    (hM : r.c.M = chebMats q n) (hG : r.c.G = waveGrid N L hN) (S : ℂ[X]) (hS : r.c.Sk = scalarProduct q (n + 4) phi S)
    (γ : ℝ) (h : Vec (RModes N) (Fin (n + 2) → ℂ)) (T : Temp (RModes N) (Fin (n + 2) → ℂ)) (hT : HasBC bc (waveGrid N L hN).zero T)
    (Q : RModes N → Fin (n + 2) → ℂ)
    (U U' : Vel (RModes N) (Fin n → ℂ) (Fin (n + 2) → ℂ)) (g g' : RModes N → Fin (n + 2) → ℂ) (hU : U.u r.c.G.zero = 0) (hU' : U'.u r.c.G.zero = 0)
    (P P' R R' : Temp (RModes N) (Fin (n + 2) → ℂ))
    (hs : BoussinesqEq r (γ * r.c.dt) h T Q U g (U.v r.c.G.zero) (U.w r.c.G.zero) R U' g' R') (m : ℕ) (Qf : Scalar)
    (hh : Orthogonal (fun j : Fin (n + 4) => quadPoint q (n + 4) j) (fun j : Fin (n + 4) => quadWeight q (n + 4) j) (fun i : Fin m => phi i)
      (residualT r.kappa (γ * r.c.dt) Qf (fieldT L P) (fieldT L P'))) :
    WeakStepRB q n m L r.c.nu r.kappa (γ * r.c.dt) r.c.G.zero S h T Qf U g P U' g' P' := by
  obtain ⟨h1, h2, h3, h4, -⟩ := hs
  have hsub : SubEq r.c γ ⟨fun k => h.c0 k + T.d k, h.c1, h.c2⟩ U g U' g' := by
    refine ⟨fun k hk => ?_, h2, h3, h4⟩
    have := h1 k hk
    rw [hG] at hk
    rw [hT.2.1 k hk, hT.2.2.2 k hk] at this
    convert this using 1
    simp only [forceU, forceT, weakLinear, map_add]
    simp only [add_zero, sub_zero, zero_div, zero_smul]
    module
  obtain ⟨a, b, c, d⟩ := weak_of_sub q n hN r.c hM hG S hS γ _ U U' g g' hU hU' hL hsub
  refine ⟨?_, b, c, d, hh⟩
  have e : residualU r.c.nu (γ * r.c.dt) (fun x y z => fieldD q n L h.c0 x y z + fieldT L T x y z) (fieldD q n L h.c1) (fieldD q n L h.c2)
      (fieldU (chebWall q n) L U) (fieldU (chebWall q n) L U') = residualU r.c.nu (γ * r.c.dt) (fieldD q n L fun k => h.c0 k + T.d k)
        (fieldD q n L h.c1) (fieldD q n L h.c2) (fieldU (chebWall q n) L U) (fieldU (chebWall q n) L U') := by
    have e1 : (fun x y z => fieldD q n L h.c0 x y z + fieldT L T x y z) = fieldOf N L fun k => expandC phi (h.c0 k) + tempPoly (T.d k) (T.p k) (T.q k) := by
      funext x y z
      exact (field_add _ _ _ _ _ _ _ _).symm
    have key : ∀ (i : Fin 2) (k : RModes N), (Complex.I * scaledWaves N L i k) • (Complex.I * scaledWaves N L i k) •
        (expandC phi (h.c0 k) + tempPoly (T.d k) (T.p k) (T.q k)) =
        (Complex.I * scaledWaves N L i k) • (Complex.I * scaledWaves N L i k) • expandC phi (h.c0 k + T.d k) := fun i k => by
      rw [smul_add, map_add, smul_add, mul_smul _ _ (tempPoly _ _ _), linear_zero hN hL T hT, smul_add, smul_add, mul_smul _ _ (expandC phi (T.d k))]
    have ey : dy (dy (fun x y z => fieldD q n L h.c0 x y z + fieldT L T x y z)) = dy (dy (fieldD q n L fun k => h.c0 k + T.d k)) := by
      rw [e1, fieldD, fieldOf, fieldOf, dy_field, dy_field, dy_field, dy_field]
      congr 1
      funext k
      exact key 0 k
    have ez : dz (dz (fun x y z => fieldD q n L h.c0 x y z + fieldT L T x y z)) = dz (dz (fieldD q n L fun k => h.c0 k + T.d k)) := by
      rw [e1, fieldD, fieldOf, fieldOf, dz_field, dz_field, dz_field, dz_field]
      congr 1
      funext k
      exact key 1 k
    funext x y z
    simp only [residualU, force, ey, ez]
  rw [e]
  exact a

/-- Divergence of a flux. -/
noncomputable def divergence (f0 f1 f2 : Scalar) : Scalar := fun x y z => dx f0 x y z + dy f1 x y z + dz f2 x y z

/-- The transform into the biharmonic space of a function given by its values at the grid points. -/
noncomputable def transformB (q : Quad) (n : ℕ) (L : Fin 2 → ℝ) (N M : Fin 2 → ℕ) (f : Scalar) : RModes N → Fin n → ℂ := fun k =>
  forwardWall q (n + 4) psi fun j => (rspace N M).forward (sample L M (chebWall q n).x f j) k

/-- C79: with the default quadrature the fluxes in `DivRBConvection` are the transforms of `T u`, `T v`, `T w` as functions. -/
theorem C79_flux (n : ℕ) (hL : ∀ i, L i ≠ 0) (T : Temp (RModes N) (Fin (n + 2) → ℂ)) (U : Vel (RModes N) (Fin n → ℂ) (Fin (n + 2) → ℂ)) :
    prodBwall .GC n (rspace N M) T U.u = transformB .GC n L N M (times (fieldT L T) (fieldU (chebWall .GC n) L U)) ∧
    prodDwall .GC n (rspace N M) T U.v = transform (chebWall .GC n) L N M (times (fieldT L T) (fieldV (chebWall .GC n) L U)) ∧
    prodDwall .GC n (rspace N M) T U.w = transform (chebWall .GC n) L N M (times (fieldT L T) (fieldW (chebWall .GC n) L U)) := by
  refine ⟨?_, ?_, ?_⟩
  · unfold prodBwall bwdT bwdB
    rw [synth_eq L hL, synth_eq L hL]
    rfl
  · unfold prodDwall bwdT bwdD
    rw [synth_eq L hL, synth_eq L hL]
    rfl
  · unfold prodDwall bwdT bwdD
    rw [synth_eq L hL, synth_eq L hL]
    rfl

section Generic

variable {κ B D : Type*} [DecidableEq κ] [AddCommGroup B] [Module ℂ B] [AddCommGroup D] [Module ℂ D]

/-- The velocity part of C63 for KMM_RB does not depend on the matrices inside `TC`; the temperature is here that of a solver with the
right matrices. -/
theorem boussinesq_velocity (r : RBCtx κ B D) (la : LA κ B D) (solveT : κ → D → D) (hnu : r.c.nu ≠ 0) (hdt : r.c.dt ≠ 0) (hk : r.kappa ≠ 0)
    (hla : la.Solves r.c.nu r.c.dt r.c.G r.c.M) (hT : SolvesT r 1 solveT) (s : RBSt κ B D) (T : Temp κ D) (hT' : ab2T s.phi0 s.phi1 = T) (hU : s.s.U0 = s.s.U) :
    ∃ Q P P', BoussinesqEq r (1 * r.c.dt) (ab2Vec r.c.mask (r.c.conv s.s.U s.s.g) s.s.H1) T Q s.s.U s.s.g (s.s.U.v r.c.G.zero) (s.s.U.w r.c.G.zero) P
      (integrateRB r la solveT s).s.U (integrateRB r la solveT s).s.g P' := by
  have h := C63_step_partial { r with ADDT := r.ADDR, BDDT := r.BDDR } la solveT hnu hdt hk rfl rfl hla hT s
  simp only [hT', hU] at h
  rw [one_mul]
  exact ⟨_, _, _, h⟩

theorem heat_rows (r : RBCtx κ B D) (la : LA κ B D) (solveT : κ → D → D) (hT : SolvesT r 1 solveT) (s : RBSt κ B D) (T : Temp κ D)
    (hab : ab2T s.phi0 s.phi1 = T) (hU : s.s.U0 = s.s.U) (k : κ) :
    -r.ADDR ((integrateRB r la solveT s).phi.d k) + ((r.c.G.Ksq k + 2 / r.kappa / 1 / r.c.dt : ℝ) : ℂ) • r.BDDR ((integrateRB r la solveT s).phi.d k) =
      ((-2 / r.kappa : ℝ) : ℂ) • heatConv r s.s.U T k + tcMatvec r 1 (2 / r.kappa / r.c.dt - r.c.G.Ksq k) (s.phi0.d k) := by
  have h := hT k ((computeRHSRB r s).2.2.2 k)
  refine Eq.trans h ?_
  show _ • maskT r.c.mask (divRB r (meanVel s.s.U s.s.U0) (phiAb s.phi0 s.phi1)) k + _ = _
  rw [divRB_eq, phiAb_eq, hab, hU, meanVel_self]

end Generic

section Runs

variable (n : ℕ) (hN : ∀ i, 0 < N i) (hL : ∀ i, L i ≠ 0) (c : Ctx (RModes N) (Fin n → ℂ) (Fin (n + 2) → ℂ)) (hG : c.G = waveGrid N L hN)
  (kappa : ℝ) (prodB : Temp (RModes N) (Fin (n + 2) → ℂ) → (RModes N → Fin n → ℂ) → RModes N → Fin n → ℂ)
  (prodD : Temp (RModes N) (Fin (n + 2) → ℂ) → (RModes N → Fin (n + 2) → ℂ) → RModes N → Fin (n + 2) → ℂ)
include hL hG

omit hL in
theorem hasBC_cheb (q qT : Quad) (T : Temp (RModes N) (Fin (n + 2) → ℂ)) (hp : T.p = (chebRB bc q qT n c kappa prodB prodD).bcp)
    (hq : T.q = (chebRB bc q qT n c kappa prodB prodD).bcq) : HasBC bc (waveGrid N L hN).zero T := by
  refine ⟨?_, fun k hk => ?_, ?_, fun k hk => ?_⟩
  · rw [hp]; simp [chebRB, hG]
  · rw [hp]; simp [chebRB, hG, hk]
  · rw [hq]; simp [chebRB, hG]
  · rw [hq]; simp [chebRB, hG, hk]

/-- C79: after any step of KMM_RB from any state, for both quadratures, any convection, source, mask and any solver of the heat equation, the velocity is divergence free at every
point and zero at the walls, and the walls have the prescribed temperatures. -/
theorem C79_kmm_rb_fields (q qT : Quad) (hM : c.M = chebMats q n) (la : LA (RModes N) (Fin n → ℂ) (Fin (n + 2) → ℂ)) (htdma : ∀ b, c.M.BDD (la.tdmaD b) = b)
    (solveT : RModes N → (Fin (n + 2) → ℂ) → Fin (n + 2) → ℂ) (s : RBSt (RModes N) (Fin n → ℂ) (Fin (n + 2) → ℂ)) (m : ℕ) :
    let s' := (tickRB (chebRB bc q qT n c kappa prodB prodD) la solveT)^[m + 1] s
    DivergenceFree (fieldU (chebWall q n) L s'.s.U) (fieldV (chebWall q n) L s'.s.U) (fieldW (chebWall q n) L s'.s.U) ∧
    NoSlip (fieldU (chebWall q n) L s'.s.U) (fieldV (chebWall q n) L s'.s.U) (fieldW (chebWall q n) L s'.s.U) ∧
    WallTemperatures bc (fieldT L s'.phi) := by
  intro s'
  have hz : ∀ k, c.G.Ksq k = 0 ↔ k = c.G.zero := fun k => by rw [hG]; exact waveGrid_zero N L hN hL k
  have hs : s' = tickRB (chebRB bc q qT n c kappa prodB prodD) la solveT ((tickRB (chebRB bc q qT n c kappa prodB prodD) la solveT)^[m] s) :=
    Function.iterate_succ_apply' _ _ _
  have h : Solenoidal c s'.s.U s'.s.g := by
    rw [hs]
    exact C33_kmm c la htdma hz _ _ _
  refine ⟨(solenoidal_field q n hN hL c hM hG _ _ h).1, noSlip q n _, wall_temperatures hN hL _ ?_⟩
  apply hasBC_cheb n hN c hG kappa prodB prodD q qT <;> rw [hs] <;> rfl

/-- C79 for KMMRK3_RB. -/
theorem C79_kmmrk3_rb_fields (q qT : Quad) (hM : c.M = chebMats q n) (convT) (la : Fin 3 → LA (RModes N) (Fin n → ℂ) (Fin (n + 2) → ℂ))
    (htdma : ∀ b, c.M.BDD ((la 2).tdmaD b) = b)
    (solveT : Fin 3 → RModes N → (Fin (n + 2) → ℂ) → Fin (n + 2) → ℂ) (s : RB3St (RModes N) (Fin n → ℂ) (Fin (n + 2) → ℂ)) (m : ℕ) :
    let s' := (integrateRB3 (chebRB bc q qT n c kappa prodB prodD) convT la solveT)^[m + 1] s
    DivergenceFree (fieldU (chebWall q n) L s'.s.U) (fieldV (chebWall q n) L s'.s.U) (fieldW (chebWall q n) L s'.s.U) ∧
    NoSlip (fieldU (chebWall q n) L s'.s.U) (fieldV (chebWall q n) L s'.s.U) (fieldW (chebWall q n) L s'.s.U) ∧
    WallTemperatures bc (fieldT L s'.phi) := by
  intro s'
  have hz : ∀ k, c.G.Ksq k = 0 ↔ k = c.G.zero := fun k => by rw [hG]; exact waveGrid_zero N L hN hL k
  have hs : s' = integrateRB3 (chebRB bc q qT n c kappa prodB prodD) convT la solveT
      ((integrateRB3 (chebRB bc q qT n c kappa prodB prodD) convT la solveT)^[m] s) := Function.iterate_succ_apply' _ _ _
  have h : Solenoidal c s'.s.U s'.s.g := by
    rw [hs]
    exact C33_kmmrk3 c (la 2) htdma hz _ _ _ _
  refine ⟨(solenoidal_field q n hN hL c hM hG _ _ h).1, noSlip q n _, wall_temperatures hN hL _ ?_⟩
  apply hasBC_cheb n hN c hG kappa prodB prodD q qT <;> rw [hs] <;> rfl

variable (S : ℂ[X]) (hS : c.Sk = scalarProduct .GC (n + 4) phi S) (hM : c.M = chebMats .GC n) (hnu : c.nu ≠ 0) (hdt : c.dt ≠ 0)
  (hkappa : kappa ≠ 0)
include hS hM hnu hdt hkappa

/-- One substep of KMMRK3_RB in physical space. -/
theorem weak_substepRB (W : Wall (Fin n → ℂ) (Fin (n + 2) → ℂ) (Fin (n + 4) → ℂ) Q) (hD : W.fD = expandC phi)
    (hC : W.fC = expandC fun j => Chebyshev.T ℝ (j : ℤ)) (la : Fin 3 → LA (RModes N) (Fin n → ℂ) (Fin (n + 2) → ℂ))
    (hla : ∀ rk, (la rk).Solves3 c.nu c.dt (rkA rk + rkB rk) c.G c.M)
    (solveT : Fin 3 → RModes N → (Fin (n + 2) → ℂ) → Fin (n + 2) → ℂ)
    (hT : ∀ rk, SolvesT (chebRB bc .GC .GC n c kappa prodB prodD) (rkA rk + rkB rk) (solveT rk))
    (rk : Fin 3) (s t : RB3St (RModes N) (Fin n → ℂ) (Fin (n + 2) → ℂ)) (hz : s.s.U.u c.G.zero = 0) (hb : HasBC bc (waveGrid N L hN).zero s.phi)
    (hbt : HasBC bc (waveGrid N L hN).zero t.phi) (γ : ℝ) (hγ : rkA rk + rkB rk = γ) (hγ0 : γ ≠ 0)
    (hst : rkB rk = 0 ∨ StoredRB (chebRB bc .GC .GC n c kappa prodB prodD) (c.conv t.s.U t.s.g)
      (standardRB .GC n W (rspace N M) (waveGrid N L hN) t.s.U t.phi) s) :
    let NT := fun t : RB3St (RModes N) (Fin n → ℂ) (Fin (n + 2) → ℂ) =>
      transform W L N M (advect (fieldU W L t.s.U) (fieldV W L t.s.U) (fieldW W L t.s.U) (fieldT L t.phi))
    let s' := substepRB (chebRB bc .GC .GC n c kappa prodB prodD) (standardRB .GC n W (rspace N M) (waveGrid N L hN)) la solveT rk s
    s'.s.U.u c.G.zero = 0 ∧ HasBC bc (waveGrid N L hN).zero s'.phi ∧
    WeakStepRB .GC n (n + 2) L c.nu kappa (γ * c.dt) c.G.zero S (combine c.mask (rkA rk / γ) (rkB rk / γ) (c.conv s.s.U s.s.g) (c.conv t.s.U t.s.g))
      s.phi (fieldD .GC n L (combineT c.mask (rkA rk / γ) (rkB rk / γ) (NT s) (NT t))) s.s.U s.s.g s.phi s'.s.U s'.s.g s'.phi := by
  intro NT s'
  have hz' : s'.s.U.u c.G.zero = 0 := by simp [s', substepRB, solveLinear3, chebRB]
  have hb' : HasBC bc (waveGrid N L hN).zero s'.phi := hasBC_cheb n hN c hG kappa prodB prodD .GC .GC _ rfl rfl
  refine ⟨hz', hb', ?_⟩
  have e := substepRB_eq (chebRB bc .GC .GC n c kappa prodB prodD) (standardRB .GC n W (rspace N M) (waveGrid N L hN)) la solveT hnu hdt hkappa
    rfl rfl rk (hla rk) (hT rk) s γ hγ hγ0 _ _ hst
  refine weak_of_boussinesq .GC n hN hL (chebRB bc .GC .GC n c kappa prodB prodD) hM hG S hS γ _ _ hb _ _ _ _ _ hz hz' _ _ _ _ e (n + 2) _ ?_
  refine heat_of_rows n (n + 2) le_rfl .GC hN hL kappa (γ * c.dt) _ _ _ hb hb' fun k i _ => ?_
  have h := e.2.2.2.2.1 k
  have hQ : combineT c.mask (rkA rk / γ) (rkB rk / γ) (standardRB .GC n W (rspace N M) (waveGrid N L hN) s.s.U s.phi)
      (standardRB .GC n W (rspace N M) (waveGrid N L hN) t.s.U t.phi) k =
      scalarProduct .GC (n + 4) phi ((chebWall .GC n).fD (combineT c.mask (rkA rk / γ) (rkB rk / γ) (NT s) (NT t) k)) := by
    have : ∀ v, scalarProduct .GC (n + 4) phi ((chebWall .GC n).fD v) = (chebMats .GC n).BDD v :=
      fun v => (entry_test .GC (n + 4) (n + 2) 0 phi phi v).symm
    rw [this]
    simp only [combineT, C79_convection .GC n W hD hC hN hL _ _ hb, C79_convection .GC n W hD hC hN hL _ _ hbt, map_smul, map_add]
    rfl
  have h1 := sub_eq_zero.2 h
  have hq : (chebRB bc .GC .GC n c kappa prodB prodD).c.G.Ksq k = (waveGrid N L hN).Ksq k := by rw [← hG]; rfl
  rw [hq] at h1
  have h2 := congrFun h1 i
  refine Eq.trans ?_ h2
  rw [← hQ]
  rfl

set_option maxHeartbeats 1000000 in
/-- C79 for KMMRK3_RB with the default quadrature: every step is three substeps, each solving the Boussinesq equations in physical space;
the convection of heat is the transform of `(u . grad) T`. -/
theorem C79_kmmrk3_rb (W : Wall (Fin n → ℂ) (Fin (n + 2) → ℂ) (Fin (n + 4) → ℂ) Q) (hD : W.fD = expandC phi)
    (hC : W.fC = expandC fun j => Chebyshev.T ℝ (j : ℤ)) (la : Fin 3 → LA (RModes N) (Fin n → ℂ) (Fin (n + 2) → ℂ))
    (hla : ∀ rk, (la rk).Solves3 c.nu c.dt (rkA rk + rkB rk) c.G c.M)
    (solveT : Fin 3 → RModes N → (Fin (n + 2) → ℂ) → Fin (n + 2) → ℂ)
    (hT : ∀ rk, SolvesT (chebRB bc .GC .GC n c kappa prodB prodD) (rkA rk + rkB rk) (solveT rk))
    (s0 : RB3St (RModes N) (Fin n → ℂ) (Fin (n + 2) → ℂ)) (hz : s0.s.U.u c.G.zero = 0) (hb : HasBC bc c.G.zero s0.phi) (m : ℕ) :
    let s := fun m => (integrateRB3 (chebRB bc .GC .GC n c kappa prodB prodD) (standardRB .GC n W (rspace N M) (waveGrid N L hN)) la solveT)^[m] s0
    ∃ s1 s2 : RB3St (RModes N) (Fin n → ℂ) (Fin (n + 2) → ℂ),
      let conv := fun t : RB3St (RModes N) (Fin n → ℂ) (Fin (n + 2) → ℂ) => c.conv t.s.U t.s.g
      let NT := fun t : RB3St (RModes N) (Fin n → ℂ) (Fin (n + 2) → ℂ) =>
        transform W L N M (advect (fieldU W L t.s.U) (fieldV W L t.s.U) (fieldW W L t.s.U) (fieldT L t.phi))
      let step := fun γ x y (t t' t'' : RB3St (RModes N) (Fin n → ℂ) (Fin (n + 2) → ℂ)) =>
        WeakStepRB .GC n (n + 2) L c.nu kappa (γ * c.dt) c.G.zero S (combine c.mask x y (conv t) (conv t')) t.phi
          (fieldD .GC n L (combineT c.mask x y (NT t) (NT t'))) t.s.U t.s.g t.phi t''.s.U t''.s.g t''.phi
      step (8 / 15) 1 0 (s m) (s m) s1 ∧ step (2 / 15) (25 / 8) (-17 / 8) s1 (s m) s2 ∧ step (1 / 3) (9 / 4) (-5 / 4) s2 s1 (s (m + 1)) := by
  intro s
  have hs : ∀ m, s (m + 1) = integrateRB3 (chebRB bc .GC .GC n c kappa prodB prodD) (standardRB .GC n W (rspace N M) (waveGrid N L hN)) la solveT (s m) :=
    fun m => Function.iterate_succ_apply' _ _ _
  rw [hG] at hb
  have hinv : (s m).s.U.u c.G.zero = 0 ∧ HasBC bc (waveGrid N L hN).zero (s m).phi := by
    cases m with
    | zero => exact ⟨hz, hb⟩
    | succ m =>
      rw [hs]
      refine ⟨?_, hasBC_cheb n hN c hG kappa prodB prodD .GC .GC _ rfl rfl⟩
      simp [integrateRB3, substepRB, solveLinear3, chebRB]
  obtain ⟨f0, f1, f2, -⟩ := C35_fractions
  obtain ⟨z1, b1, w1⟩ := weak_substepRB n hN hL c hG kappa prodB prodD S hS hM hnu hdt hkappa (M := M) W hD hC la hla solveT hT 0 (s m) (s m) hinv.1 hinv.2
    hinv.2 (8 / 15) f0 (by norm_num) (Or.inl rfl)
  obtain ⟨z2, b2, w2⟩ := weak_substepRB n hN hL c hG kappa prodB prodD S hS hM hnu hdt hkappa (M := M) W hD hC la hla solveT hT 1 _ (s m) z1 b1
    hinv.2 (2 / 15) f1 (by norm_num) (Or.inr (substepRB_stored _ _ la solveT 0 (s m)))
  obtain ⟨z3, b3, w3⟩ := weak_substepRB n hN hL c hG kappa prodB prodD S hS hM hnu hdt hkappa (M := M) W hD hC la hla solveT hT 2 _ _ z2 b2
    b1 (1 / 3) f2 (by norm_num) (Or.inr (substepRB_stored _ _ la solveT 1 _))
  have a0 : rkA 0 / (8 / 15) = 1 := by show (8 / 15 : ℝ) / (8 / 15) = 1; norm_num
  have c0 : rkB 0 / (8 / 15) = 0 := by show (0 : ℝ) / (8 / 15) = 0; norm_num
  have a1 : rkA 1 / (2 / 15) = 25 / 8 := by show (5 / 12 : ℝ) / (2 / 15) = 25 / 8; norm_num
  have c1 : rkB 1 / (2 / 15) = -17 / 8 := by show (-17 / 60 : ℝ) / (2 / 15) = -17 / 8; norm_num
  have a2 : rkA 2 / (1 / 3) = 9 / 4 := by show (3 / 4 : ℝ) / (1 / 3) = 9 / 4; norm_num
  have c2 : rkB 2 / (1 / 3) = -5 / 4 := by show (-5 / 12 : ℝ) / (1 / 3) = -5 / 4; norm_num
  rw [a0, c0] at w1
  rw [a1, c1] at w2
  rw [a2, c2] at w3
  refine ⟨_, _, w1, w2, ?_⟩
  rw [hs]
  exact w3

/-- One step of KMM_RB in physical space. -/
theorem weak_stepRB (la : LA (RModes N) (Fin n → ℂ) (Fin (n + 2) → ℂ)) (hla : la.Solves c.nu c.dt c.G c.M)
    (solveT : RModes N → (Fin (n + 2) → ℂ) → Fin (n + 2) → ℂ) (hT : SolvesT (chebRB bc .GC .GL n c kappa prodB prodD) 1 solveT)
    (s : RBSt (RModes N) (Fin n → ℂ) (Fin (n + 2) → ℂ)) (hU : s.s.U0 = s.s.U) (hp0 : s.phi0 = s.phi) (T : Temp (RModes N) (Fin (n + 2) → ℂ))
    (hab : ab2T s.phi0 s.phi1 = T) (hTb : HasBC bc (waveGrid N L hN).zero T) (hz : s.s.U.u c.G.zero = 0) (hb : HasBC bc (waveGrid N L hN).zero s.phi)
    (s' : RBSt (RModes N) (Fin n → ℂ) (Fin (n + 2) → ℂ)) (hs' : integrateRB (chebRB bc .GC .GL n c kappa prodB prodD) la solveT s = s') :
    let B := fun a : RModes N → Fin n → ℂ => fieldOf N L fun k => expandC psi ((maskAt c.mask k : ℂ) • a k)
    let D := fun a : RModes N → Fin (n + 2) → ℂ => fieldD .GC n L fun k => (maskAt c.mask k : ℂ) • a k
    WeakStepRB .GC n (n + 1) L c.nu kappa c.dt c.G.zero S (ab2Vec c.mask (c.conv s.s.U s.s.g) s.s.H1) T
      (divergence (B (prodB T s.s.U.u)) (D (prodD T s.s.U.v)) (D (prodD T s.s.U.w)))
      s.s.U s.s.g s.phi s'.s.U s'.s.g s'.phi := by
  intro B D
  set r := chebRB bc .GC .GL n c kappa prodB prodD with hr
  obtain ⟨Q0, P0, P0', e⟩ := boussinesq_velocity r la solveT hnu hdt hkappa hla hT s T hab hU
  rw [hs'] at e
  have hz' : s'.s.U.u c.G.zero = 0 := by rw [← hs']; simp [integrateRB, solveLinearRB, solveLinear, r, chebRB]
  have hb' : HasBC bc (waveGrid N L hN).zero s'.phi := by
    rw [← hs']; exact hasBC_cheb n hN c hG kappa prodB prodD .GC .GL _ rfl rfl
  have key := weak_of_boussinesq .GC n hN hL r hM hG S hS 1 _ T hTb _ _ _ _ _ hz hz' s.phi s'.phi _ _ e (n + 1)
    (divergence (B (prodB T s.s.U.u)) (D (prodD T s.s.U.v)) (D (prodD T s.s.U.w)))
  rw [one_mul] at key
  refine key ?_
  clear key e
  have hA : r.ADDT = (chebMats .GC n).ADD := (Galerkin.C75_quadrature n).1.symm
  have hBD : ∀ (v : Fin (n + 2) → ℂ) (i : Fin (n + 2)), (i : ℕ) < n + 1 → r.BDDT v i = (chebMats .GC n).BDD v i := fun v i hi => by
    have h1 := C63_defect (n + 4) (by omega) v i
    rw [if_neg (by omega)] at h1
    have h2 := (Galerkin.C75_dirichlet .GL n).2
    have h3 := (Galerkin.C75_dirichlet .GC n).2
    show (chebMats .GL n).BDD v i = _
    rw [h2, h3]
    exact sub_eq_zero.1 h1
  have eQ : divergence (B (prodB T s.s.U.u)) (D (prodD T s.s.U.v)) (D (prodD T s.s.U.w)) = fieldOf N L fun k =>
      (maskAt c.mask k : ℂ) • (derivative (expandC psi (prodB T s.s.U.u k)) + (Complex.I * scaledWaves N L 0 k) • expandC phi (prodD T s.s.U.v k)
        + (Complex.I * scaledWaves N L 1 k) • expandC phi (prodD T s.s.U.w k)) := by
    funext x y z
    simp only [divergence, B, D, fieldD]
    unfold fieldOf
    rw [dx_field, dy_field, dz_field, ← field_add, ← field_add]
    refine congrArg (fun a => field _ _ _ a x y z) (funext fun k => ?_)
    show derivative (expandC psi _) + _ • expandC phi _ + _ • expandC phi _ = _
    rw [map_smul, map_smul, map_smul, map_smul]
    module
  rw [eQ]
  refine heat_of_rows n (n + 1) (by omega) .GC hN hL kappa c.dt _ _ _ hb hb' fun k i hi => ?_
  have h := congrFun (heat_rows r la solveT hT s T hab hU k) i
  rw [hs'] at h
  have hQ : heatConv r s.s.U T k = scalarProduct .GC (n + 4) phi ((maskAt c.mask k : ℂ) • (derivative (expandC psi (prodB T s.s.U.u k))
      + (Complex.I * scaledWaves N L 0 k) • expandC phi (prodD T s.s.U.v k) + (Complex.I * scaledWaves N L 1 k) • expandC phi (prodD T s.s.U.w k))) := by
    have tD0 : ∀ v, (chebMats .GC n).BDD v = scalarProduct .GC (n + 4) phi (expandC phi v) := fun v => entry_test .GC (n + 4) (n + 2) 0 phi phi v
    have tD1 : ∀ v, (chebMats .GC n).CDB v = scalarProduct .GC (n + 4) phi (derivative (expandC psi v)) := fun v => entry_test .GC (n + 4) n 1 phi psi v
    show (maskAt c.mask k : ℂ) • (c.M.CDB (prodB T s.s.U.u k)
      + c.M.BDD ((Complex.I * c.G.K1 k) • prodD T s.s.U.v k + (Complex.I * c.G.K2 k) • prodD T s.s.U.w k)) = _
    rw [hM, hG, tD0, tD1, map_add, map_smul, map_smul, map_smul, ← map_add, add_assoc]
    rfl
  rw [← hQ]
  generalize heatConv r s.s.U T k = Z at h ⊢
  have eA : r.ADDR = (chebMats .GC n).ADD := rfl
  have eB : r.BDDR = (chebMats .GC n).BDD := rfl
  have eK : r.c.G.Ksq k = (waveGrid N L hN).Ksq k := by rw [← hG]; rfl
  have ek : r.kappa = kappa := rfl
  have et : r.c.dt = c.dt := rfl
  simp only [tcMatvec, Pi.add_apply, Pi.smul_apply, Pi.neg_apply, hA, hBD _ _ hi, eA, eB, eK, ek, et, hp0, smul_eq_mul] at h
  simp only [lap, LinearMap.sub_apply, LinearMap.smul_apply, Pi.sub_apply, Pi.add_apply, Pi.smul_apply, Pi.neg_apply, smul_eq_mul]
  have hdt' : (c.dt : ℂ) ≠ 0 := by exact_mod_cast hdt
  have hk' : (kappa : ℂ) ≠ 0 := by exact_mod_cast hkappa
  push_cast at h ⊢
  rw [← sub_eq_zero] at h
  refine Eq.trans ?_ ((congrArg (fun z => ((kappa * c.dt / 2 : ℂ)) * z) h).trans (mul_zero _))
  field_simp
  ring

/-- C79 for KMM_RB with the default quadrature, missing the last test function of the heat equation: `TC` has another quadrature than the
temperature space (KMM_RB.py:46), which makes the last row wrong (`C63_quadrature_false`). -/
theorem C79_kmm_rb_partial (la : LA (RModes N) (Fin n → ℂ) (Fin (n + 2) → ℂ)) (hla : la.Solves c.nu c.dt c.G c.M)
    (solveT : RModes N → (Fin (n + 2) → ℂ) → Fin (n + 2) → ℂ) (hT : SolvesT (chebRB bc .GC .GL n c kappa prodB prodD) 1 solveT)
    (s0 : RBSt (RModes N) (Fin n → ℂ) (Fin (n + 2) → ℂ)) (hU : s0.s.U0 = s0.s.U) (hp0 : s0.phi0 = s0.phi) (hp1 : s0.phi1 = s0.phi)
    (hz : s0.s.U.u c.G.zero = 0) (hb : HasBC bc c.G.zero s0.phi) (m : ℕ) :
    let s := fun m => (tickRB (chebRB bc .GC .GL n c kappa prodB prodD) la solveT)^[m] s0
    let conv := fun m => c.conv (s m).s.U (s m).s.g
    let conv' := fun m => match m with
      | 0 => s0.s.H1
      | m + 1 => conv m
    let T := fun m => match m with
      | 0 => s0.phi
      | m + 1 => ab2T (s (m + 1)).phi (s m).phi
    let B := fun a : RModes N → Fin n → ℂ => fieldOf N L fun k => expandC psi ((maskAt c.mask k : ℂ) • a k)
    let D := fun a : RModes N → Fin (n + 2) → ℂ => fieldD .GC n L fun k => (maskAt c.mask k : ℂ) • a k
    WeakStepRB .GC n (n + 1) L c.nu kappa c.dt c.G.zero S (ab2Vec c.mask (conv m) (conv' m)) (T m)
      (divergence (B (prodB (T m) (s m).s.U.u)) (D (prodD (T m) (s m).s.U.v)) (D (prodD (T m) (s m).s.U.w)))
      (s m).s.U (s m).s.g (s m).phi (s (m + 1)).s.U (s (m + 1)).s.g (s (m + 1)).phi := by
  intro s conv conv' T B D
  have hb : HasBC bc (waveGrid N L hN).zero s0.phi := by rw [← hG]; exact hb
  have hs : ∀ m, s (m + 1) = endOfTstepRB (integrateRB (chebRB bc .GC .GL n c kappa prodB prodD) la solveT (s m)) :=
    fun m => Function.iterate_succ_apply' _ _ _
  have hui : ∀ t, (integrateRB (chebRB bc .GC .GL n c kappa prodB prodD) la solveT t).s.U.u c.G.zero = 0 := fun t => by
    simp [integrateRB, solveLinearRB, solveLinear, chebRB]
  have hbi : ∀ t, HasBC bc (waveGrid N L hN).zero (integrateRB (chebRB bc .GC .GL n c kappa prodB prodD) la solveT t).phi := fun t =>
    hasBC_cheb n hN c hG kappa prodB prodD .GC .GL _ rfl rfl
  have hc : ∀ t, (integrateRB (chebRB bc .GC .GL n c kappa prodB prodD) la solveT t).s.H = c.conv t.s.U t.s.g := fun _ => rfl
  have h0i : ∀ t, (integrateRB (chebRB bc .GC .GL n c kappa prodB prodD) la solveT t).phi0 = t.phi0 := fun _ => rfl
  have end1 : ∀ t : RBSt (RModes N) (Fin n → ℂ) (Fin (n + 2) → ℂ), (endOfTstepRB t).s.U = t.s.U ∧ (endOfTstepRB t).s.g = t.s.g ∧
      (endOfTstepRB t).phi = t.phi ∧ (endOfTstepRB t).s.U0 = t.s.U ∧ (endOfTstepRB t).phi0 = t.phi ∧ (endOfTstepRB t).phi1 = t.phi0 ∧
      (endOfTstepRB t).s.H1 = t.s.H := fun _ => ⟨rfl, rfl, rfl, rfl, rfl, rfl, rfl⟩
  have hw := weak_stepRB n hN hL c hG kappa prodB prodD S hS hM hnu hdt hkappa la hla solveT hT
  generalize integrateRB (chebRB bc .GC .GL n c kappa prodB prodD) la solveT = step at hs hui hbi hc h0i hw
  have hbc : ∀ m, HasBC bc (waveGrid N L hN).zero (s m).phi := fun m => by
    cases m with
    | zero => exact hb
    | succ m => rw [hs, (end1 _).2.2.1]; exact hbi _
  have hp : ∀ m, (s m).phi0 = (s m).phi := fun m => by
    cases m with
    | zero => exact hp0
    | succ m => rw [hs, (end1 _).2.2.1, (end1 _).2.2.2.2.1]
  have hinv : (s m).s.U.u c.G.zero = 0 ∧ (s m).s.U0 = (s m).s.U ∧
      (s m).s.H1 = conv' m ∧ ab2T (s m).phi0 (s m).phi1 = T m ∧ HasBC bc (waveGrid N L hN).zero (T m) := by
    cases m with
    | zero =>
      refine ⟨hz, hU, rfl, ?_, hb⟩
      show ab2T s0.phi0 s0.phi1 = s0.phi
      rw [hp0, hp1, ← phiAb_eq, phiAb_self]
    | succ m =>
      refine ⟨?_, ?_, ?_, ?_, hasBC_ab2 _ _ _ (hbc _) (hbc _)⟩
      · rw [hs, (end1 _).1, hui]
      · rw [hs, (end1 _).1, (end1 _).2.2.2.1]
      · rw [hs, (end1 _).2.2.2.2.2.2, hc]
      · show ab2T (s (m + 1)).phi0 (s (m + 1)).phi1 = ab2T (s (m + 1)).phi (s m).phi
        have : (s (m + 1)).phi1 = (s m).phi := by rw [hs, (end1 _).2.2.2.2.2.1, h0i, hp]
        rw [hp, this]
  obtain ⟨i1, i2, i3, i4, i5⟩ := hinv
  have h := hw (s m) i2 (hp m) (T m) i4 i5 i1 (hbc m) _ rfl
  rw [i3] at h
  rw [hs, (end1 _).1, (end1 _).2.1, (end1 _).2.2.1]
  exact h

end Runs

end SpectralDNS.Channel

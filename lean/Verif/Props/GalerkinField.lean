import Verif.Lemmas.GalerkinSpace
import Verif.Lemmas.Fourier
import Verif.Model.ChebWall
import Verif.Props.ChannelConv
import Verif.Props.ChannelStep
import Verif.Props.Galerkin

/-!
# C77: the velocity of the channel solvers is divergence free at every point and vanishes at the walls
-/

namespace SpectralDNS.Channel

open Polynomial Periodic Spec.Field Spec.Channel

/-! ## The Chebyshev wall-normal direction meets the requirements of C73 -/

theorem degree_cheb (j : ℕ) : (Chebyshev.T ℝ (j : ℤ)).degree = (j + 0 : ℕ) := by rw [Chebyshev.degree_T]; simp

theorem expandC_series {n : ℕ} (c : Fin n → ℂ) : expandC (fun j => Chebyshev.T ℝ (j : ℤ)) c = Spec.Cheb.series n (padD c) := by
  rw [expandC_apply, Spec.Cheb.series, Finset.sum_range]
  refine Finset.sum_congr rfl fun j _ => ?_
  rw [Chebyshev.map_T]
  simp [padD]

theorem expandC_dirichlet {n : ℕ} (d : Fin (n + 2) → ℂ) : expandC phi d = Spec.Cheb.dirichlet (n + 4) (padD d) := by
  rw [expandC_apply, Spec.Cheb.dirichlet, show n + 4 - 2 = n + 2 by omega, Finset.sum_range]
  refine Finset.sum_congr rfl fun j _ => ?_
  rw [phi, Polynomial.map_sub, Chebyshev.map_T, Chebyshev.map_T]
  simp [padD]

/-- C73: the bases, quadratures and recursions of the code satisfy `Wall.Exact` at every resolution. -/
theorem C73_cheb_exact (q : Quad) (n : ℕ) : (chebWall q n).Exact where
  projD d := mass_inv q (n + 4) (n + 2) phi 2 le_rfl (by omega) degree_phi d
  projC c := mass_inv q (n + 4) (n + 4) _ 0 le_rfl (by omega) degree_cheb c
  ctd d := by
    show expandC (fun j => Chebyshev.T ℝ (j : ℤ)) (multCTD n d) = derivative (expandC phi d)
    rw [expandC_dirichlet, expandC_series]
    have := (LUsolve.C38_derivative (N := n + 4) (p := 0) (st := 1) (by omega) one_pos (padD d) 0 0 0).1
    simp only [zero_add, mul_one] at this
    rw [← this]
    refine Finset.sum_congr rfl fun i hi => ?_
    rw [padD, dif_pos (Finset.mem_range.1 hi)]
    rfl
  chebB b := by
    obtain ⟨S, hS⟩ := exists_expandC psi (fun j => Chebyshev.T ℝ (j : ℤ)) (a := n) (b := n + 4) fun j =>
      exists_cheb (n + 4) _ (by rw [degree_psi]; exact_mod_cast (by have := j.2; omega : (j : ℕ) + 4 < n + 4))
    exact ⟨S b, hS b⟩
  chebD d := by
    obtain ⟨S, hS⟩ := exists_expandC phi (fun j => Chebyshev.T ℝ (j : ℤ)) (a := n + 2) (b := n + 4) fun j =>
      exists_cheb (n + 4) _ (by rw [degree_phi]; exact_mod_cast (by have := j.2; omega : (j : ℕ) + 2 < n + 4))
    exact ⟨S d, hS d⟩

/-- C73: `project` onto the biharmonic space gives the function of the space with the same scalar products; it leaves the functions of the space as
they are. -/
theorem C73_cheb_project (q : Quad) (n : ℕ) :
    (∀ b, (chebWall q n).projB ((chebWall q n).fB b) = b) ∧
    ∀ p, scalarProduct (a := n) q (n + 4) psi ((chebWall q n).fB ((chebWall q n).projB p)) = scalarProduct q (n + 4) psi p := by
  have h1 : ∀ b, (chebWall q n).projB ((chebWall q n).fB b) = b := fun b => mass_inv q (n + 4) n psi 4 le_rfl (by omega) degree_psi b
  refine ⟨h1, fun p => ?_⟩
  have hs : Function.Surjective fun b : Fin n → ℂ => scalarProduct (a := n) q (n + 4) psi (expandC psi b) := by
    have hi : Function.Injective (scalarProduct (a := n) q (n + 4) psi ∘ₗ expandC (a := n) psi) := fun b b' h => by
      rw [← h1 b, ← h1 b']
      exact congrArg (matC (entry q (n + 4) psi psi 0 n n)⁻¹) h
    exact LinearMap.injective_iff_surjective.1 hi
  obtain ⟨b, hb⟩ := hs (scalarProduct q (n + 4) psi p)
  have : (chebWall q n).projB p = b := by
    rw [← h1 b]
    exact congrArg (matC (entry q (n + 4) psi psi 0 n n)⁻¹) hb.symm
  rw [this]
  exact hb

/-- C73: `forward` recovers the coefficients of a function from its values at the quadrature points. -/
theorem C73_cheb_forward (q : Quad) (n : ℕ) (d : Fin (n + 2) → ℂ) :
    (chebWall q n).fwd (fun j => ((chebWall q n).fD d).eval ((chebWall q n).x j : ℂ)) = d := by
  have h := mass_inv q (n + 4) (n + 2) phi 2 le_rfl (by omega) degree_phi d
  refine Eq.trans ?_ h
  show matC _ _ = matC _ _
  congr 1
  funext i
  rw [scalarProduct_apply, Finset.sum_range]
  simp [LinearMap.sum_apply, chebWall]

/-! ## The wavenumbers -/

theorem waveGrid_zero (N : Fin 2 → ℕ) (L : Fin 2 → ℝ) (hN : ∀ i, 0 < N i) (hL : ∀ i, L i ≠ 0) (k : RModes N) :
    (waveGrid N L hN).Ksq k = 0 ↔ k = (waveGrid N L hN).zero := by
  have hz : ∀ i, waves N i (waveGrid N L hN).zero = 0 := fun i => by
    have h0 : (((waveGrid N L hN).zero i : Fin _) : ℕ) = 0 := rfl
    have := hN i
    simp only [waves, h0]
    split_ifs <;> simp
  have hs : ∀ i k, scaledWaves N L i k = 0 ↔ waves N i k = 0 := fun i k => by
    have := hL i
    simp [scaledWaves, Real.pi_ne_zero, this]
  constructor
  · intro h
    have h' : scaledWaves N L 0 k * scaledWaves N L 0 k + scaledWaves N L 1 k * scaledWaves N L 1 k = 0 := h
    have h1 : scaledWaves N L 0 k = 0 := by nlinarith [mul_self_nonneg (scaledWaves N L 0 k), mul_self_nonneg (scaledWaves N L 1 k)]
    have h2 : scaledWaves N L 1 k = 0 := by nlinarith [mul_self_nonneg (scaledWaves N L 0 k), mul_self_nonneg (scaledWaves N L 1 k)]
    refine waves_inj N _ _ fun i => ?_
    rw [hz]
    fin_cases i
    · exact (hs 0 k).1 h1
    · exact (hs 1 k).1 h2
  · rintro rfl
    have h1 := (hs 0 _).2 (hz 0)
    have h2 := (hs 1 _).2 (hz 1)
    show scaledWaves N L 0 _ * scaledWaves N L 0 _ + scaledWaves N L 1 _ * scaledWaves N L 1 _ = 0
    rw [h1, h2]; ring

/-! ## From the Galerkin equation to every point -/

theorem continuity_pointwise (q : Quad) (n : ℕ) (k1 k2 : ℝ) (u : Fin n → ℂ) (v w : Fin (n + 2) → ℂ) :
    Continuity (chebMats q n).BDD (chebMats q n).CDB k1 k2 u v w ↔
      derivative (expandC psi u) + ((Complex.I * k1) • expandC phi v + (Complex.I * k2) • expandC phi w) = 0 := by
  obtain ⟨d, hd⟩ := derivative_psi n u
  have h1 : (chebMats q n).CDB u = (chebMats q n).BDD d := by
    show matC _ _ = matC _ _
    rw [entry_test, entry_test, Function.iterate_zero, id, hd]
    rfl
  rw [Continuity, h1, ← map_add, ← hd, ← map_smul, ← map_smul, ← map_add, ← map_add]
  rw [← (chebMats q n).BDD.map_zero, (Galerkin.mass_bijective q n).1.eq_iff]
  rw [← (expandC phi : (Fin (n + 2) → ℂ) →ₗ[ℂ] ℂ[X]).map_zero, (expandC_phi_injective (n + 2) phi 2 degree_phi).eq_iff]

section field

variable {κ : Type*} [Fintype κ]

theorem field_add (w k1 k2 : κ → ℝ) (a b : κ → ℂ[X]) (x y z : ℝ) :
    field w k1 k2 (fun k => a k + b k) x y z = field w k1 k2 a x y z + field w k1 k2 b x y z := by
  have h1 := field_sub w k1 k2 a (fun k => -b k) x y z
  rw [field_neg] at h1
  simp only [sub_neg_eq_add] at h1
  exact h1

theorem field_zero (w k1 k2 : κ → ℝ) (a : κ → ℂ[X]) (x y z : ℝ) (h : ∀ k, (a k).eval (x : ℂ) = 0) : field w k1 k2 a x y z = 0 := by
  simp [field, h]

end field

variable {N : Fin 2 → ℕ} {L : Fin 2 → ℝ}

theorem eval_wall (f : ℕ → ℝ[X]) {a : ℕ} (v : Fin a → ℂ) (x : ℝ) (h : ∀ j, (f j).eval x = 0) : (expandC f v).eval (x : ℂ) = 0 := by
  rw [expandC_apply, eval_finsetSum]
  refine Finset.sum_eq_zero fun j _ => ?_
  rw [eval_smul, eval_ofReal, h, Complex.ofReal_zero, smul_zero]

/-- Whatever the coefficients, the functions satisfy the boundary conditions. -/
theorem noSlip (q : Quad) (n : ℕ) (U : Vel (RModes N) (Fin n → ℂ) (Fin (n + 2) → ℂ)) :
    NoSlip (fieldU (chebWall q n) L U) (fieldV (chebWall q n) L U) (fieldW (chebWall q n) L U) := by
  intro x y z hx
  have h1 : ∀ j, (phi j).eval x = 0 := fun j => by
    rcases hx with rfl | rfl
    · exact (phi_walls j).2
    · exact (phi_walls j).1
  have h2 : ∀ j, (psi j).eval x = 0 := fun j => by
    rcases hx with rfl | rfl
    · exact (psi_walls j).2.1
    · exact (psi_walls j).1
  have h3 : ∀ j, (derivative (psi j)).eval x = 0 := fun j => by
    rcases hx with rfl | rfl
    · exact (psi_walls j).2.2.2
    · exact (psi_walls j).2.2.1
  refine ⟨field_zero _ _ _ _ _ _ _ fun k => eval_wall _ _ _ h2, field_zero _ _ _ _ _ _ _ fun k => eval_wall _ _ _ h1,
    field_zero _ _ _ _ _ _ _ fun k => eval_wall _ _ _ h1, ?_⟩
  rw [fieldU, fieldOf, dx_field]
  refine field_zero _ _ _ _ _ _ _ fun k => ?_
  show (derivative (expandC psi (U.u k))).eval (x : ℂ) = 0
  rw [← expandC_derivative]
  exact eval_wall _ _ _ h3

open Classical in
/-- The wall-normal vorticity stored by the solver as a function; the mean has no wall-normal vorticity. -/
noncomputable def fieldG (q : Quad) (n : ℕ) (L : Fin 2 → ℝ) (zero : RModes N) (g : RModes N → Fin (n + 2) → ℂ) : Scalar :=
  fieldOf N L fun k => if k = zero then 0 else (chebWall q n).fD (g k)

theorem solenoidal_field (q : Quad) (n : ℕ) (hN : ∀ i, 0 < N i) (hL : ∀ i, L i ≠ 0) (c : Ctx (RModes N) (Fin n → ℂ) (Fin (n + 2) → ℂ))
    (hM : c.M = chebMats q n) (hG : c.G = waveGrid N L hN) (U : Vel (RModes N) (Fin n → ℂ) (Fin (n + 2) → ℂ))
    (g : RModes N → Fin (n + 2) → ℂ) (h : Solenoidal c U g) :
    DivergenceFree (fieldU (chebWall q n) L U) (fieldV (chebWall q n) L U) (fieldW (chebWall q n) L U) ∧
    curl0 (fieldU (chebWall q n) L U) (fieldV (chebWall q n) L U) (fieldW (chebWall q n) L U) = fieldG q n L c.G.zero g := by
  obtain ⟨h1, h2, -⟩ := h
  constructor
  · intro x y z
    rw [fieldU, fieldV, fieldW, fieldOf, fieldOf, fieldOf, dx_field, dy_field, dz_field, ← field_add, ← field_add]
    refine field_zero _ _ _ _ _ _ _ fun k => ?_
    have h3 := h1 k
    rw [hM, hG] at h3
    have h4 := (continuity_pointwise q n _ _ _ _ _).1 h3
    have h5 := congrArg (eval (x : ℂ)) h4
    rw [eval_zero] at h5
    rw [← h5, ← add_assoc]
    rfl
  · funext x y z
    rw [curl0, fieldV, fieldW, fieldOf, fieldOf, dy_field, dz_field, ← field_sub, fieldG, fieldOf]
    congr 1
    funext k
    by_cases hk : k = c.G.zero
    · rw [if_pos hk]
      have h0 := (waveGrid_zero N L hN hL k).2 (by rw [hk, hG])
      have h' : scaledWaves N L 0 k * scaledWaves N L 0 k + scaledWaves N L 1 k * scaledWaves N L 1 k = 0 := h0
      have e1 : scaledWaves N L 0 k = 0 := by nlinarith [mul_self_nonneg (scaledWaves N L 0 k), mul_self_nonneg (scaledWaves N L 1 k)]
      have e2 : scaledWaves N L 1 k = 0 := by nlinarith [mul_self_nonneg (scaledWaves N L 0 k), mul_self_nonneg (scaledWaves N L 1 k)]
      rw [e1, e2]; simp
    · rw [if_neg hk]
      have h3 := h2 k hk
      rw [hG] at h3
      rw [← h3, curl, map_sub, map_smul, map_smul]
      rfl

/-- What a run may change besides the solver steps: the mean flow along the walls (MKM.py:99-108 keeps the flux constant). -/
def MeanOnly {κ B D : Type*} (zero : κ) (upd : Vel κ B D → Vel κ B D) : Prop :=
  ∀ U, (upd U).u = U.u ∧ ∀ k, k ≠ zero → (upd U).v k = U.v k ∧ (upd U).w k = U.w k

theorem solenoidal_upd {κ B D : Type*} [DecidableEq κ] [AddCommGroup B] [Module ℂ B] [AddCommGroup D] [Module ℂ D] (c : Ctx κ B D)
    (hz : ∀ k, c.G.Ksq k = 0 ↔ k = c.G.zero) (upd : Vel κ B D → Vel κ B D) (hu : MeanOnly c.G.zero upd) (U : Vel κ B D) (g : κ → D)
    (h : Solenoidal c U g) : Solenoidal c (upd U) g := by
  obtain ⟨h1, h2, h3⟩ := h
  obtain ⟨e, e'⟩ := hu U
  refine ⟨fun k => ?_, fun k hk => ?_, by rw [e, h3]⟩
  · by_cases hk : k = c.G.zero
    · have h0 : c.G.K1 k * c.G.K1 k + c.G.K2 k * c.G.K2 k = 0 := (hz k).2 hk
      have a1 : c.G.K1 k = 0 := by nlinarith [mul_self_nonneg (c.G.K1 k), mul_self_nonneg (c.G.K2 k)]
      have a2 : c.G.K2 k = 0 := by nlinarith [mul_self_nonneg (c.G.K1 k), mul_self_nonneg (c.G.K2 k)]
      subst hk
      simp [Continuity, a1, a2, e, h3]
    · obtain ⟨b1, b2⟩ := e' k hk
      rw [e, b1, b2]; exact h1 k
  · obtain ⟨b1, b2⟩ := e' k hk
    rw [b1, b2]; exact h2 k hk

section Run

variable (q : Quad) (n : ℕ) (hN : ∀ i, 0 < N i) (hL : ∀ i, L i ≠ 0) (c : Ctx (RModes N) (Fin n → ℂ) (Fin (n + 2) → ℂ))
  (hM : c.M = chebMats q n) (hG : c.G = waveGrid N L hN)
  (upd : Vel (RModes N) (Fin n → ℂ) (Fin (n + 2) → ℂ) → Vel (RModes N) (Fin n → ℂ) (Fin (n + 2) → ℂ)) (hu : MeanOnly c.G.zero upd)
include hL hM hG hu

/-- C77: after any step of KMM from any state, with any convection, source and mask, the velocity is divergence free at every point and
zero at the walls, and `g` is its wall-normal vorticity. -/
theorem C77_kmm (la : LA (RModes N) (Fin n → ℂ) (Fin (n + 2) → ℂ)) (htdma : ∀ b, c.M.BDD (la.tdmaD b) = b)
    (s : St (RModes N) (Fin n → ℂ) (Fin (n + 2) → ℂ)) (m : ℕ) :
    let s' := (tick c la upd)^[m + 1] s
    DivergenceFree (fieldU (chebWall q n) L s'.U) (fieldV (chebWall q n) L s'.U) (fieldW (chebWall q n) L s'.U) ∧
    NoSlip (fieldU (chebWall q n) L s'.U) (fieldV (chebWall q n) L s'.U) (fieldW (chebWall q n) L s'.U) ∧
    curl0 (fieldU (chebWall q n) L s'.U) (fieldV (chebWall q n) L s'.U) (fieldW (chebWall q n) L s'.U) = fieldG q n L c.G.zero s'.g := by
  intro s'
  have hz : ∀ k, c.G.Ksq k = 0 ↔ k = c.G.zero := fun k => by rw [hG]; exact waveGrid_zero N L hN hL k
  have h : Solenoidal c s'.U s'.g := by
    rw [show s' = tick c la upd ((tick c la upd)^[m] s) from Function.iterate_succ_apply' _ _ _]
    exact solenoidal_upd c hz upd hu _ _ (C33_kmm c la htdma hz _ _ _)
  obtain ⟨h1, h2⟩ := solenoidal_field q n hN hL c hM hG _ _ h
  exact ⟨h1, noSlip q n _, h2⟩

/-- C77 for KMMRK3. -/
theorem C77_kmmrk3 (la : Fin 3 → LA (RModes N) (Fin n → ℂ) (Fin (n + 2) → ℂ)) (htdma : ∀ b, c.M.BDD ((la 2).tdmaD b) = b)
    (s : St3 (RModes N) (Fin n → ℂ) (Fin (n + 2) → ℂ)) (m : ℕ) :
    let s' := (tick3 c la upd)^[m + 1] s
    DivergenceFree (fieldU (chebWall q n) L s'.U) (fieldV (chebWall q n) L s'.U) (fieldW (chebWall q n) L s'.U) ∧
    NoSlip (fieldU (chebWall q n) L s'.U) (fieldV (chebWall q n) L s'.U) (fieldW (chebWall q n) L s'.U) ∧
    curl0 (fieldU (chebWall q n) L s'.U) (fieldV (chebWall q n) L s'.U) (fieldW (chebWall q n) L s'.U) = fieldG q n L c.G.zero s'.g := by
  intro s'
  have hz : ∀ k, c.G.Ksq k = 0 ↔ k = c.G.zero := fun k => by rw [hG]; exact waveGrid_zero N L hN hL k
  have h : Solenoidal c s'.U s'.g := by
    rw [show s' = tick3 c la upd ((tick3 c la upd)^[m] s) from Function.iterate_succ_apply' _ _ _]
    exact solenoidal_upd c hz upd hu _ _ (C33_kmmrk3 c (la 2) htdma hz _ _ _ _)
  obtain ⟨h1, h2⟩ := solenoidal_field q n hN hL c hM hG _ _ h
  exact ⟨h1, noSlip q n _, h2⟩

end Run

end SpectralDNS.Channel

import Verif.Props.RBField
import Verif.Props.Laminar

/-!
# C79 is false for KMM_RB in the last row; C80: relaxation to the conduction state
-/

namespace SpectralDNS.Channel

open Polynomial Periodic Spec.Field Spec.Channel Laminar

variable {N M : Fin 2 → ℕ} {L : Fin 2 → ℝ} {bc : ℝ × ℝ}

theorem solveT_zero {κ : Type*} [DecidableEq κ] (n : ℕ) (r : RBCtx κ (Fin n → ℂ) (Fin (n + 2) → ℂ)) (hA : r.ADDR = (chebMats .GC n).ADD)
    (hB : r.BDDR = (chebMats .GC n).BDD) (hk : 0 < r.kappa) (hdt : 0 < r.c.dt) (ab : ℝ) (hab : 0 < ab) (solveT) (hT : SolvesT r ab solveT) (k : κ) :
    solveT k 0 = 0 := by
  have hK : 0 ≤ r.c.G.Ksq k := add_nonneg (mul_self_nonneg _) (mul_self_nonneg _)
  have h := hT k 0
  rw [hA, hB] at h
  refine (Galerkin.dirichlet_bijective .GC n (r.c.G.Ksq k + 2 / r.kappa / ab / r.c.dt) (by positivity)).1 ?_
  simp only
  rw [h]
  simp

theorem sum_weight_re (q : Quad) (m : ℕ) {a : ℕ} (f : ℕ → ℝ[X]) (p : ℂ[X]) (i : Fin a) :
    ∑ j : Fin m, quadWeight q m j * (f i).eval (quadPoint q m j) * (p.eval ((quadPoint q m j : ℝ) : ℂ)).re =
      ((scalarProduct q m f p : Fin a → ℂ) i).re := by
  rw [scalarProduct_apply, Finset.sum_range, Complex.re_sum]
  exact Finset.sum_congr rfl fun j _ => by rw [Complex.re_ofReal_mul]

/-- A function all of whose coefficients but the mean are zero. -/
theorem field_mean (hN : ∀ i, 0 < N i) (hL : ∀ i, L i ≠ 0) (a : RModes N → ℂ[X]) (ha : ∀ k, k ≠ (waveGrid N L hN).zero → a k = 0) (x y z : ℝ) :
    fieldOf N L a x y z = ((a (waveGrid N L hN).zero).eval (x : ℂ)).re := by
  obtain ⟨hz0, hz1⟩ := waves_zero hN hL
  rw [fieldOf, field, Finset.sum_eq_single (waveGrid N L hN).zero]
  · rw [rweight_zero hN, hz0, hz1]; simp
  · intro k _ hk; rw [ha k hk]; simp
  · simp

theorem waveGrid_waves (hN : ∀ i, 0 < N i) (i : Fin 2) : waves N i (waveGrid N L hN).zero = 0 := by
  have h0 : (((waveGrid N L hN).zero i : Fin _) : ℕ) = 0 := rfl
  have := hN i
  simp only [waves, h0]
  split_ifs <;> simp

theorem waveGrid_flat (hN : ∀ i, 0 < N i) (hNM : ∀ i, N i ≤ M i) : Flat (rspace N M) (waveGrid N L hN).zero :=
  rspace_flat N M hN hNM _ (waveGrid_waves hN)

theorem prodBwall_rest (q : Quad) (n : ℕ) {κ P : Type*} {T : Space κ P} {z : κ} (hT : Flat T z) (t : Temp κ (Fin (n + 2) → ℂ)) :
    prodBwall q n T t 0 = 0 := by
  funext k
  unfold prodBwall
  rw [bwdB_zero hT, mul_zero]
  have : (fun j : Fin (n + 4) => T.forward ((0 : Fin (n + 4) → P → ℝ) j) k) = 0 := by
    funext j
    exact congrFun hT.forward_zero k
  rw [this, map_zero]; rfl

theorem prodDwall_rest (q : Quad) (n : ℕ) {κ P : Type*} {T : Space κ P} {z : κ} (hT : Flat T z) (t : Temp κ (Fin (n + 2) → ℂ)) :
    prodDwall q n T t 0 = 0 := by
  unfold prodDwall
  rw [bwdD_zero hT, mul_zero, fwdD_zero hT]

/-- A fluid at rest whose temperature differs from the conduction profile by the last function of the basis. -/
noncomputable def lastMode {κ : Type*} [DecidableEq κ] (bc : ℝ × ℝ) (n : ℕ) (zero : κ) : Temp κ (Fin (n + 2) → ℂ) :=
  ⟨Pi.single zero (Pi.single (Fin.last (n + 1)) 1), Pi.single zero (bc.1 : ℂ), Pi.single zero (bc.2 : ℂ)⟩

/-- C79 is false for KMM_RB: in the first step from rest with the temperature `lastMode` the heat equation does not hold when tested with the last function, on every grid,
for every `nu`, `kappa`, `dt` and every convection. -/
theorem C79_kmm_rb_false (n : ℕ) (hN : ∀ i, 0 < N i) (hL : ∀ i, L i ≠ 0) (hNM : ∀ i, N i ≤ M i) (c : Ctx (RModes N) (Fin n → ℂ) (Fin (n + 2) → ℂ))
    (hG : c.G = waveGrid N L hN) (hM : c.M = chebMats .GC n) (kappa : ℝ) (hk : 0 < kappa) (hdt : 0 < c.dt)
    (la : LA (RModes N) (Fin n → ℂ) (Fin (n + 2) → ℂ)) (solveT : RModes N → (Fin (n + 2) → ℂ) → Fin (n + 2) → ℂ)
    (hT : SolvesT (chebRB bc .GC .GL n c kappa (prodBwall .GC n (rspace N M)) (prodDwall .GC n (rspace N M))) 1 solveT)
    (s0 : RBSt (RModes N) (Fin n → ℂ) (Fin (n + 2) → ℂ)) (hU : s0.s.U = ⟨0, 0, 0⟩) (hU0 : s0.s.U0 = ⟨0, 0, 0⟩)
    (hp : s0.phi = lastMode bc n c.G.zero) (hp0 : s0.phi0 = s0.phi) (hp1 : s0.phi1 = s0.phi) (S : ℂ[X]) (h : Vec (RModes N) (Fin (n + 2) → ℂ)) :
    let s := tickRB (chebRB bc .GC .GL n c kappa (prodBwall .GC n (rspace N M)) (prodDwall .GC n (rspace N M))) la solveT s0
    let B := fun a : RModes N → Fin n → ℂ => fieldOf N L fun k => expandC psi ((maskAt c.mask k : ℂ) • a k)
    let D := fun a : RModes N → Fin (n + 2) → ℂ => fieldD .GC n L fun k => (maskAt c.mask k : ℂ) • a k
    ¬ WeakStepRB .GC n (n + 2) L c.nu kappa c.dt c.G.zero S h s0.phi
      (divergence (B (prodBwall .GC n (rspace N M) s0.phi s0.s.U.u)) (D (prodDwall .GC n (rspace N M) s0.phi s0.s.U.v))
        (D (prodDwall .GC n (rspace N M) s0.phi s0.s.U.w)))
      s0.s.U s0.s.g s0.phi s.s.U s.s.g s.phi := by
  intro s B D hw
  have hQ : divergence (B (prodBwall .GC n (rspace N M) s0.phi s0.s.U.u)) (D (prodDwall .GC n (rspace N M) s0.phi s0.s.U.v))
      (D (prodDwall .GC n (rspace N M) s0.phi s0.s.U.w)) = fieldOf N L fun _ => 0 := by
    rw [hU]
    simp only [prodBwall_rest .GC n (waveGrid_flat (L := L) hN hNM), prodDwall_rest .GC n (waveGrid_flat (L := L) hN hNM)]
    funext x y z
    simp only [divergence, B, D, fieldD]
    unfold fieldOf
    rw [dx_field, dy_field, dz_field, ← field_add, ← field_add]
    refine congrArg (fun a => field _ _ _ a x y z) (funext fun k => ?_)
    simp
  have hb : HasBC bc (waveGrid N L hN).zero s0.phi := by
    rw [hp, hG]
    refine ⟨by simp [lastMode], fun k hk => by simp [lastMode, hk], by simp [lastMode], fun k hk => by simp [lastMode, hk]⟩
  obtain ⟨-, -, -, -, h5⟩ := hw
  have hs : s.phi = (integrateRB (chebRB bc .GC .GL n c kappa (prodBwall .GC n (rspace N M)) (prodDwall .GC n (rspace N M))) la solveT s0).phi := rfl
  have hb' : HasBC bc (waveGrid N L hN).zero s.phi := hasBC_cheb n hN c hG kappa (prodBwall .GC n (rspace N M)) (prodDwall .GC n (rspace N M)) .GC .GL _ rfl rfl
  have hab : ab2T s0.phi0 s0.phi1 = s0.phi := by rw [hp0, hp1, ← phiAb_eq, phiAb_self]
  have hrow := heat_rows _ la solveT hT s0 s0.phi hab (hU0.trans hU.symm)
  rw [← hs] at hrow
  rw [hQ, residualT_field hN hL kappa c.dt _ _ _ hb hb'] at h5
  clear_value s
  have hcv : ∀ k, heatConv (chebRB bc .GC .GL n c kappa (prodBwall .GC n (rspace N M)) (prodDwall .GC n (rspace N M))) s0.s.U s0.phi k = 0 := fun k => by
    rw [hU]
    unfold heatConv
    rw [show (chebRB bc .GC .GL n c kappa (prodBwall .GC n (rspace N M)) (prodDwall .GC n (rspace N M))).prodB = prodBwall .GC n (rspace N M) from rfl,
      show (chebRB bc .GC .GL n c kappa (prodBwall .GC n (rspace N M)) (prodDwall .GC n (rspace N M))).prodD = prodDwall .GC n (rspace N M) from rfl]
    simp only [prodBwall_rest .GC n (waveGrid_flat (L := L) hN hNM), prodDwall_rest .GC n (waveGrid_flat (L := L) hN hNM)]
    simp [weakDiv]
  have hd : ∀ k, k ≠ (waveGrid N L hN).zero → s0.phi.d k = 0 := fun k hk => by
    rw [hp, hG]
    exact Pi.single_eq_of_ne hk _
  have hz : s0.phi.d (waveGrid N L hN).zero = Pi.single (Fin.last (n + 1)) 1 := by
    rw [hp, hG]
    simp [lastMode]
  have eK : ∀ k, (chebRB bc .GC .GL n c kappa (prodBwall .GC n (rspace N M)) (prodDwall .GC n (rspace N M))).c.G.Ksq k = (waveGrid N L hN).Ksq k := fun k => by
    rw [← hG]; rfl
  have hrow' : ∀ k, -(chebMats .GC n).ADD (s.phi.d k) + (((waveGrid N L hN).Ksq k + 2 / kappa / 1 / c.dt : ℝ) : ℂ) • (chebMats .GC n).BDD (s.phi.d k) =
      (chebMats .GL n).ADD (s0.phi.d k) + ((2 / kappa / c.dt - (waveGrid N L hN).Ksq k : ℝ) : ℂ) • (chebMats .GL n).BDD (s0.phi.d k) := fun k => by
    have := hrow k
    rw [hcv, smul_zero, zero_add, eK, hp0, tcMatvec, Complex.ofReal_one, one_smul] at this
    exact this
  have hd' : ∀ k, k ≠ (waveGrid N L hN).zero → s.phi.d k = 0 := fun k hk' => by
    have hK : 0 ≤ (waveGrid N L hN).Ksq k := add_nonneg (mul_self_nonneg _) (mul_self_nonneg _)
    refine (Galerkin.dirichlet_bijective .GC n ((waveGrid N L hN).Ksq k + 2 / kappa / 1 / c.dt) (by positivity)).1 ?_
    simp only
    rw [hrow', hd k hk']
    simp
  have h6 := h5 (Fin.last (n + 1)) 0 0
  have hR : ∀ k, k ≠ (waveGrid N L hN).zero → expandC phi (s.phi.d k) - expandC phi (s0.phi.d k) - ((c.dt : ℝ) : ℂ) • (((kappa / 2 : ℝ) : ℂ) •
      (lapPoly N L k (expandC phi (s0.phi.d k)) + lapPoly N L k (expandC phi (s.phi.d k))) - 0) = 0 := fun k hk' => by
    rw [hd k hk', hd' k hk']
    simp only [lapPoly, map_zero, iterate_map_zero, smul_zero, sub_zero, add_zero]
  simp only [field_mean hN hL _ hR] at h6
  rw [sum_weight_re .GC (n + 4) phi _ (Fin.last (n + 1))] at h6
  set z := (waveGrid N L hN).zero with hz'
  have hKz : (waveGrid N L hN).Ksq z = 0 := (waveGrid_zero N L hN hL _).2 rfl
  have tD0 : ∀ v, (chebMats .GC n).BDD v = scalarProduct .GC (n + 4) phi (expandC phi v) := fun v => entry_test .GC (n + 4) (n + 2) 0 phi phi v
  have tD2 : ∀ v, (chebMats .GC n).ADD v = scalarProduct .GC (n + 4) phi (derivative^[2] (expandC phi v)) := fun v => entry_test .GC (n + 4) (n + 2) 2 phi phi v
  have hl : ∀ p, lapPoly N L z p = derivative^[2] p := fun p => by
    unfold lapPoly
    have : scaledWaves N L 0 z * scaledWaves N L 0 z + scaledWaves N L 1 z * scaledWaves N L 1 z = 0 := hKz
    rw [this]; simp
  simp only [hl, map_sub, map_add, map_smul, ← tD0, ← tD2, sub_zero] at h6
  have h7 := congrFun (hrow' z) (Fin.last (n + 1))
  have h8 : (chebMats .GL n).BDD (s0.phi.d z) (Fin.last (n + 1)) = (chebMats .GC n).BDD (s0.phi.d z) (Fin.last (n + 1)) + ((Real.pi / 2 : ℝ) : ℂ) := by
    have h1 := C63_defect (n + 4) (by omega) (s0.phi.d z) (Fin.last (n + 1))
    rw [if_pos (by simp)] at h1
    rw [(Galerkin.C75_dirichlet .GL n).2, (Galerkin.C75_dirichlet .GC n).2]
    have h2 : s0.phi.d z (Fin.last (n + 1)) = 1 := by rw [hz]; simp
    rw [h2, mul_one] at h1
    exact (sub_eq_iff_eq_add'.1 h1)
  rw [← (Galerkin.C75_quadrature n).1] at h7
  simp only [Pi.add_apply, Pi.neg_apply, Pi.smul_apply, Pi.sub_apply, smul_eq_mul, hKz, h8, zero_add, sub_zero, div_one] at h7 h6
  generalize (chebMats .GC n).ADD (s.phi.d z) (Fin.last (n + 1)) = a' at h6 h7
  generalize (chebMats .GC n).BDD (s.phi.d z) (Fin.last (n + 1)) = b' at h6 h7
  generalize (chebMats .GC n).ADD (s0.phi.d z) (Fin.last (n + 1)) = a at h6 h7
  generalize (chebMats .GC n).BDD (s0.phi.d z) (Fin.last (n + 1)) = b at h6 h7
  have h9 : b' - b - (c.dt : ℂ) * (((kappa / 2 : ℝ) : ℂ) * (a + a')) = ((Real.pi / 2 : ℝ) : ℂ) := by
    have h1 : (kappa : ℂ) ≠ 0 := by exact_mod_cast hk.ne'
    have h2 : (c.dt : ℂ) ≠ 0 := by exact_mod_cast hdt.ne'
    push_cast at h7 ⊢
    field_simp at h7
    linear_combination (1 / 2 : ℂ) * h7
  rw [h9, Complex.ofReal_re] at h6
  exact (by positivity : (Real.pi / 2 : ℝ) ≠ 0) h6

/-- The solvers exist, and the solver of C79_kmmrk3_rb and C79_kmm_rb_partial with its own convections meets the hypotheses, on every grid: a run of each. -/
example (n : ℕ) (hN : ∀ i, 0 < N i) (hL : ∀ i, L i ≠ 0) (kind : ConvKind) (U : Vel (RModes N) (Fin n → ℂ) (Fin (n + 2) → ℂ))
    (hU : U.u (waveGrid N L hN).zero = 0) (g : RModes N → Fin (n + 2) → ℂ) (H : Vec (RModes N) (Fin (n + 2) → ℂ)) (m : ℕ) :
    let c : Ctx (RModes N) (Fin n → ℂ) (Fin (n + 2) → ℂ) := ⟨1 / 100, 1 / 1000, waveGrid N L hN, chebMats .GC n, none,
      convection kind (chebWall .GC n) (rspace N N) (waveGrid N L hN), scalarProduct .GC (n + 4) phi 0⟩
    let r := fun qT => chebRB bc .GC qT n c (1 / 50) (prodBwall .GC n (rspace N N)) (prodDwall .GC n (rspace N N))
    let T := lastMode bc n (waveGrid N L hN).zero
    (∃ la solveT, (∃ s1 : RB3St (RModes N) (Fin n → ℂ) (Fin (n + 2) → ℂ),
      let s := (integrateRB3 (r .GC) (standardRB .GC n (chebWall .GC n) (rspace N N) (waveGrid N L hN)) la solveT)^[m] ⟨⟨U, g, H, 0, 0, 0, 0⟩, T, 0⟩
      WeakStepRB .GC n (n + 2) L c.nu (1 / 50) (8 / 15 * c.dt) c.G.zero 0 (combine none 1 0 (c.conv s.s.U s.s.g) (c.conv s.s.U s.s.g)) s.phi
        (fieldD .GC n L (combineT none 1 0
          (transform (chebWall .GC n) L N N (advect (fieldU (chebWall .GC n) L s.s.U) (fieldV (chebWall .GC n) L s.s.U) (fieldW (chebWall .GC n) L s.s.U) (fieldT L s.phi)))
          (transform (chebWall .GC n) L N N (advect (fieldU (chebWall .GC n) L s.s.U) (fieldV (chebWall .GC n) L s.s.U) (fieldW (chebWall .GC n) L s.s.U) (fieldT L s.phi)))))
        s.s.U s.s.g s.phi s1.s.U s1.s.g s1.phi)) ∧
    ∃ la solveT, WallTemperatures bc (fieldT L ((tickRB (r .GL) la solveT)^[m + 1] ⟨⟨U, g, H, H, H, U⟩, T, T, T, 0, 0⟩).phi) ∧
      SolvesT (r .GL) 1 solveT ∧ la.Solves c.nu c.dt c.G c.M := by
  intro c r T
  constructor
  · choose la hla using fun rk => (Galerkin.C75_kmmrk3 (κ := RModes N) .GC n (waveGrid N L hN) (1 / 100) (1 / 1000) (by norm_num) (by norm_num) rk).exists
    choose solveT hT using fun rk => (Galerkin.C75_rb .GC n (r .GC) rfl rfl (by norm_num [r, chebRB]) (by norm_num [r, chebRB, c]) (rkA rk + rkB rk) (Or.inr ⟨rk, rfl⟩)).exists
    refine ⟨la, solveT, ?_⟩
    obtain ⟨s1, -, h, -⟩ := C79_kmmrk3_rb (M := N) n hN hL c rfl (1 / 50) _ _ 0 rfl rfl (by norm_num [c]) (by norm_num [c]) (by norm_num)
      (chebWall .GC n) rfl rfl la hla solveT hT ⟨⟨U, g, H, 0, 0, 0, 0⟩, T, 0⟩ hU
      ⟨by simp [T, lastMode, c], fun k hk => by simp [T, lastMode, show k ≠ (waveGrid N L hN).zero from hk],
        by simp [T, lastMode, c], fun k hk => by simp [T, lastMode, show k ≠ (waveGrid N L hN).zero from hk]⟩ m
    exact ⟨s1, h⟩
  · obtain ⟨la, hla, -⟩ := Galerkin.C75_kmm (κ := RModes N) .GC n (waveGrid N L hN) (1 / 100) (1 / 1000) (by norm_num) (by norm_num)
    obtain ⟨solveT, hT, -⟩ := Galerkin.C75_rb .GC n (r .GL) rfl rfl (by norm_num [r, chebRB]) (by norm_num [r, chebRB, c]) 1 (Or.inl rfl)
    exact ⟨la, solveT, (C79_kmm_rb_fields n hN hL c rfl (1 / 50) _ _ .GC .GL rfl la hla.tdmaD solveT _ m).2.2, hT, hla⟩

/-- A biharmonic function tested with one of the first two Chebyshev polynomials. -/
theorem quad_psi_T (q : Quad) (n m : ℕ) (hm : m < 2) (i : Fin n) : quadrature q (n + 4) (Chebyshev.T ℝ (m : ℤ) * psi i) =
    if (i : ℕ) = m then quadrature q (n + 4) (Chebyshev.T ℝ (m : ℤ) * Chebyshev.T ℝ (m : ℤ)) else 0 := by
  have hi := i.2
  rw [psi, mul_add, mul_sub, mul_smul_comm, mul_smul_comm, map_add, map_sub, map_smul, map_smul, quad_TT q (n + 2) m i (by omega) (by omega),
    quad_TT q (n + 2) m (i + 2) (by omega) (by omega), quad_TT q (n + 2) m (i + 4) (by omega) (by omega), quad_TT q (n + 2) m m (by omega) (by omega),
    if_neg (by omega : ¬m = (i : ℕ) + 2), if_neg (by omega : ¬m = (i : ℕ) + 4), if_pos rfl]
  by_cases h : (i : ℕ) = m
  · rw [if_pos h, if_pos h.symm]; simp
  · rw [if_neg h, if_neg (Ne.symm h)]; simp

/-- C79: the buoyancy of KMM_RB and KMMRK3_RB is that of the temperature as a function, boundary part included, whatever the boundary values of
the wavenumber are: the horizontal Laplacian of `T` tested with the biharmonic functions. -/
theorem C79_buoyancy {κ : Type*} [DecidableEq κ] (q qT : Quad) (n : ℕ) (c : Ctx κ (Fin n → ℂ) (Fin (n + 2) → ℂ)) (hM : c.M = chebMats q n) (kappa : ℝ)
    (prodB : Temp κ (Fin (n + 2) → ℂ) → (κ → Fin n → ℂ) → κ → Fin n → ℂ)
    (prodD : Temp κ (Fin (n + 2) → ℂ) → (κ → Fin (n + 2) → ℂ) → κ → Fin (n + 2) → ℂ) (T : Temp κ (Fin (n + 2) → ℂ)) (k : κ) :
    buoyancy (chebRB bc q qT n c kappa prodB prodD) T k = -(c.G.Ksq k : ℂ) • scalarProduct q (n + 4) psi (tempPoly (T.d k) (T.p k) (T.q k)) := by
  have key : ∀ m : ℕ, m < 2 → ∀ i : Fin n, scalarProduct q (n + 4) psi ((Chebyshev.T ℝ (m : ℤ)).map Complex.ofRealHom) i =
      if (i : ℕ) = m then ((quadrature q (n + 4) (Chebyshev.T ℝ (m : ℤ) * Chebyshev.T ℝ (m : ℤ)) : ℝ) : ℂ) else 0 := fun m hm i => by
    have h := quad_psi_T q n m hm i
    rw [scalarProduct_apply]
    rw [quadrature_apply] at h
    trans ((∑ j ∈ Finset.range (n + 4), quadWeight q (n + 4) j * (Chebyshev.T ℝ (m : ℤ) * psi i).eval (quadPoint q (n + 4) j) : ℝ) : ℂ)
    · push_cast
      refine Finset.sum_congr rfl fun j _ => ?_
      rw [eval_ofReal, Polynomial.eval_mul]
      push_cast
      ring
    · rw [h]; split_ifs <;> simp
  have e0 := key 0 (by omega)
  have e1 := key 1 (by omega)
  have hd := entry_test (a := n) q (n + 4) (n + 2) 0 psi phi (T.d k)
  rw [Function.iterate_zero, id] at hd
  have hp : tempPoly (T.d k) (T.p k) (T.q k) = expandC phi (T.d k) + ((1 / 2 * (T.p k + T.q k)) • (Chebyshev.T ℝ ((0 : ℕ) : ℤ)).map Complex.ofRealHom
      + (1 / 2 * (T.p k - T.q k)) • (Chebyshev.T ℝ ((1 : ℕ) : ℤ)).map Complex.ofRealHom) := by
    rw [tempPoly]
    simp [Polynomial.smul_eq_C_mul]
  rw [hp, map_add, map_add, map_smul, map_smul, ← hd]
  funext i
  have hB : (chebRB bc q qT n c kappa prodB prodD).c.M.BBD (T.d k) = matC (entry q (n + 4) psi phi 0 n (n + 2)) (T.d k) := by
    show c.M.BBD _ = _; rw [hM]; rfl
  rw [buoyancy, hB]
  simp only [Pi.add_apply, Pi.sub_apply, Pi.smul_apply, smul_eq_mul, e0, e1, chebRB]
  generalize matC (entry q (n + 4) psi phi 0 n (n + 2)) (T.d k) i = b
  push_cast
  split_ifs <;> first | omega | (norm_num; ring) | norm_num

/-- A temperature with boundary part at a wavenumber that is not the mean: its first buoyancy row is not zero. -/
example (c : Ctx (Fin 2) (Fin 2 → ℂ) (Fin 4 → ℂ)) (hG : c.G = ⟨fun k => k, 0, fun k => k, 0, 0⟩) (hM : c.M = chebMats .GC 2) :
    buoyancy (chebRB bc .GC .GL 2 c 1 (fun _ _ => 0) fun _ _ => 0) ⟨0, fun _ => 1, fun _ => 1⟩ 1 0 = -(Real.pi : ℂ) := by
  rw [buoyancy]
  have h := quad_TT .GC 4 0 0 (by omega) (by omega)
  simp [ck] at h
  simp only [chebRB, hG, Grid.Ksq]
  simp [h]
  norm_num
  ring

end SpectralDNS.Channel

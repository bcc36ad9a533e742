import Verif.Props.RBConduct
import Verif.Lemmas.Growth

/-!
# C80 is false for KMM_RB: growth of conduction states
-/

namespace SpectralDNS.Channel

open Polynomial Periodic Spec.Field Spec.Channel Laminar Filter Topology Matrix

/-- The mass matrix of the Dirichlet space is positive definite. -/
theorem mass_posDef (q : Quad) (n : ℕ) : (entry q (n + 4) phi phi 0 (n + 2) (n + 2)).PosDef := by
  refine posDef_iff_dotProduct_mulVec.2 ⟨?_, fun x hx => ?_⟩
  · ext i j
    simp only [conjTranspose_apply, star_trivial, entry, Function.iterate_zero, id]
    rw [mul_comm]
  · simpa using mass_pos q (n + 4) (n + 2) phi 2 le_rfl (by omega) degree_phi x hx

/-- The two quadratures give mass matrices which differ in the last diagonal entry. -/
theorem mass_quadratures (n : ℕ) : entry .GL (n + 4) phi phi 0 (n + 2) (n + 2) =
    entry .GC (n + 4) phi phi 0 (n + 2) (n + 2) + (Real.pi / 2) • Matrix.single (Fin.last (n + 1)) (Fin.last (n + 1)) 1 := by
  ext i j
  have h := C63_defect (n + 4) (by omega) (Pi.single j 1) i
  have h1 := congrFun (congrFun (entry_mass .GL n) i) j
  have h2 := congrFun (congrFun (entry_mass .GC n) i) j
  simp only [mulVec_single_one, col_apply] at h
  rw [Matrix.map_apply] at h1 h2
  rw [← show massMatrix (decide (Quad.GL = Quad.GL)) (n + 4) i j = massMatrix true (n + 4) i j from rfl,
    ← show massMatrix (decide (Quad.GC = Quad.GL)) (n + 4) i j = massMatrix false (n + 4) i j from rfl, ← h1, ← h2] at h
  rw [Matrix.add_apply, Matrix.smul_apply, Matrix.single_apply, smul_eq_mul, ← sub_eq_iff_eq_add']
  refine Complex.ofReal_injective ?_
  rw [Complex.ofReal_sub, h]
  by_cases hi : (i : ℕ) + 3 = n + 4
  · have e : i = Fin.last (n + 1) := Fin.ext (by simp; omega)
    subst e
    by_cases hj : Fin.last (n + 1) = j
    · subst hj; simp
    · simp [hj]
  · have e : Fin.last (n + 1) ≠ i := fun h => hi (by rw [← h]; simp)
    rw [if_neg hi]; simp [e]

section Generic

variable {κ : Type*} [DecidableEq κ]

/-- Conduction states of KMM_RB. -/
theorem conduct_orbit (n : ℕ) (r : RBCtx κ (Fin n → ℂ) (Fin (n + 2) → ℂ)) (hA : r.ADDR = (chebMats .GC n).ADD) (hB : r.BDDR = (chebMats .GC n).BDD)
    (hk : 0 < r.kappa) (hdt : 0 < r.c.dt)
    (la : LA κ (Fin n → ℂ) (Fin (n + 2) → ℂ)) (hla : la.Solves r.c.nu r.c.dt r.c.G r.c.M)
    (solveT : κ → (Fin (n + 2) → ℂ) → Fin (n + 2) → ℂ) (hT : SolvesT r 1 solveT) (hq : Quiet r)
    (hpB : ∀ T, r.prodB T 0 = 0) (hpD : ∀ T, r.prodD T 0 = 0) (s0 : RBSt κ (Fin n → ℂ) (Fin (n + 2) → ℂ))
    (hU0 : s0.s.U0 = s0.s.U) (hH : s0.s.H1 = ⟨0, 0, 0⟩) (hp0 : s0.phi0 = s0.phi) (hp1 : s0.phi1 = s0.phi) (hL0 : Layered r s0.s.U s0.s.g s0.phi) (m : ℕ) :
    let s := fun m => (tickRB r la solveT)^[m] s0
    Layered r (s m).s.U (s m).s.g (s m).phi ∧
      (s m).phi.d r.c.G.zero = (fun x => solveT r.c.G.zero (tcMatvec r 1 (2 / r.kappa / r.c.dt) x))^[m] (s0.phi.d r.c.G.zero) := by
  intro s
  have hl : ZeroLA la solveT := by
    obtain ⟨z1, z2, z3, z4⟩ := solves_zero hla
    exact ⟨z1, z2, z3, z4, solveT_zero n r hA hB hk hdt _ one_pos _ hT⟩
  have hst := layered_tick r la solveT hq hl (fun t k => congrFun (hpB t) k) (fun t k => congrFun (hpD t) k)
  have hs : ∀ m, s (m + 1) = tickRB r la solveT (s m) := fun m => Function.iterate_succ_apply' _ _ _
  suffices hinv : Layered r (s m).s.U (s m).s.g (s m).phi ∧ (s m).phi0 = (s m).phi ∧ Layered r (s m).s.U (s m).s.g (s m).phi1 ∧ (s m).s.U0 = (s m).s.U ∧
      (s m).s.H1 = ⟨0, 0, 0⟩ ∧ (s m).phi.d r.c.G.zero = (fun x => solveT r.c.G.zero (tcMatvec r 1 (2 / r.kappa / r.c.dt) x))^[m] (s0.phi.d r.c.G.zero)
    from ⟨hinv.1, hinv.2.2.2.2.2⟩
  induction m with
  | zero =>
    refine ⟨hL0, hp0, ?_, hU0, hH, rfl⟩
    show Layered r s0.s.U s0.s.g s0.phi1
    rw [hp1]; exact hL0
  | succ m ih =>
    rw [hs]
    obtain ⟨a, b, c, d, e, f⟩ := hst _ ih.1 ih.2.1 ih.2.2.1 ih.2.2.2.1 ih.2.2.2.2.1
    exact ⟨a, b, c, d, e, by rw [f, ih.2.2.2.2.2, Function.iterate_succ_apply']⟩

end Generic

/-- The iteration of the mean profile with the matrices of KMM_RB has a growing mode. -/
theorem conduct_grows (n : ℕ) : ∃ e0 : ℝ, 0 < e0 ∧ ∀ {κ : Type} (r : RBCtx κ (Fin n → ℂ) (Fin (n + 2) → ℂ)), r.ADDR = (chebMats .GC n).ADD →
    r.BDDR = (chebMats .GC n).BDD → r.ADDT = (chebMats .GL n).ADD → r.BDDT = (chebMats .GL n).BDD → 0 < r.kappa → 0 < r.c.dt → r.kappa * r.c.dt < e0 →
    ∀ solveT, SolvesT r 1 solveT → r.c.G.Ksq r.c.G.zero = 0 →
    ∃ j : Fin (n + 2), ∀ C : ℝ, ∃ m i, C < ‖(fun x => solveT r.c.G.zero (tcMatvec r 1 (2 / r.kappa / r.c.dt) x))^[m] (Pi.single j 1) i‖ := by
  obtain ⟨e0, he0, h⟩ := Growth.det_gap (entry .GC (n + 4) phi phi 0 (n + 2) (n + 2)) (entry .GC (n + 4) phi phi 2 (n + 2) (n + 2))
    (mass_posDef .GC n) (Fin.last (n + 1)) (Real.pi / 2) (by positivity)
  refine ⟨2 * e0, by positivity, fun {κ} r hA hB hAT hBT hk hdt hlt solveT hT hz => ?_⟩
  have hpos : 0 < r.kappa * r.c.dt / 2 := by positivity
  obtain ⟨d1, d2⟩ := h (r.kappa * r.c.dt / 2) hpos (by linarith)
  rw [← mass_quadratures] at d2
  set M := entry .GC (n + 4) phi phi 0 (n + 2) (n + 2)
  set M' := entry .GL (n + 4) phi phi 0 (n + 2) (n + 2)
  set A := entry .GC (n + 4) phi phi 2 (n + 2) (n + 2)
  set e := r.kappa * r.c.dt / 2 with he
  set F := fun x => solveT r.c.G.zero (tcMatvec r 1 (2 / r.kappa / r.c.dt) x) with hF
  have hdet : ∀ B : Matrix (Fin (n + 2)) (Fin (n + 2)) ℝ, (B.map ((↑) : ℝ → ℂ)).det = ((B.det : ℝ) : ℂ) := fun B => by
    have := (Complex.ofRealHom.map_det B).symm
    exact this
  have hstep : ∀ x, ((M - e • A).map ((↑) : ℝ → ℂ)).mulVec (F x) = ((M' + e • A).map ((↑) : ℝ → ℂ)).mulVec x := fun x => by
    have h1 := hT r.c.G.zero (tcMatvec r 1 (2 / r.kappa / r.c.dt) x)
    change -r.ADDR (F x) + _ • r.BDDR (F x) = _ at h1
    rw [hz, hA, hB, tcMatvec, hAT, hBT, ← (Galerkin.C75_quadrature n).1] at h1
    have q1 : ((M - e • A).map ((↑) : ℝ → ℂ)).mulVec (F x) = (chebMats .GC n).BDD (F x) - (e : ℂ) • (chebMats .GC n).ADD (F x) := by
      rw [Matrix.map_sub _ Complex.ofReal_sub, Matrix.map_smul' _ e A Complex.ofReal_mul, Matrix.sub_mulVec, Matrix.smul_mulVec]; rfl
    have q2 : ((M' + e • A).map ((↑) : ℝ → ℂ)).mulVec x = (chebMats .GL n).BDD x + (e : ℂ) • (chebMats .GC n).ADD x := by
      rw [Matrix.map_add _ Complex.ofReal_add, Matrix.map_smul' _ e A Complex.ofReal_mul, Matrix.add_mulVec, Matrix.smul_mulVec]; rfl
    rw [q1, q2, he]
    generalize (chebMats .GC n).BDD (F x) = b' at *
    generalize (chebMats .GC n).ADD (F x) = a' at *
    generalize (chebMats .GL n).BDD x = b at *
    generalize (chebMats .GC n).ADD x = a at *
    have e1 : (r.kappa : ℂ) ≠ 0 := by exact_mod_cast hk.ne'
    have e2 : (r.c.dt : ℂ) ≠ 0 := by exact_mod_cast hdt.ne'
    funext i
    have h2 := congrFun h1 i
    simp only [Pi.add_apply, Pi.sub_apply, Pi.neg_apply, Pi.smul_apply, smul_eq_mul, Pi.zero_apply] at h2 ⊢
    push_cast at h2 ⊢
    field_simp at h2 ⊢
    linear_combination h2
  refine Growth.unbounded_orbit ((M - e • A).map ((↑) : ℝ → ℂ)) ((M' + e • A).map ((↑) : ℝ → ℂ)) ?_ ?_
    (fun m => Matrix.of fun i j => F^[m] (Pi.single j 1) i) ?_ fun m => ?_
  · rw [hdet]; exact_mod_cast d1.ne'
  · rw [hdet, hdet, Complex.norm_real, Complex.norm_real, Real.norm_eq_abs, Real.norm_eq_abs, abs_of_pos d1, abs_of_pos (d1.trans d2)]
    exact d2
  · ext i j
    simp [Matrix.one_apply, Pi.single_apply]
  · ext i j
    have := congrFun (hstep (F^[m] (Pi.single j 1))) i
    rw [← Function.iterate_succ_apply' F] at this
    exact this

/-- The energy dominates every coefficient. -/
theorem energy_coeff (q : Quad) (n : ℕ) : ∃ k : ℝ, 0 < k ∧ ∀ (v : Fin (n + 2) → ℂ) i, k * ‖v i‖ ^ 2 ≤ Galerkin.energy q (n + 4) (expandC phi v) := by
  have key : ∀ i : Fin (n + 2), ∃ k : ℝ, 0 < k ∧ ∀ v : Fin (n + 2) → ℂ, k * ‖v i‖ ^ 2 ≤ Galerkin.energy q (n + 4) (expandC phi v) := fun i => by
    obtain ⟨k, hk, hle⟩ := quad_dominates (form (entry q (n + 4) phi phi 0 (n + 2) (n + 2))) (fun x => x i ^ 2)
      (form_continuous _ LinearMap.id LinearMap.id) ((continuous_apply i).pow 2) (form_smul _)
      (fun t x => by simp only [Pi.smul_apply, smul_eq_mul]; ring)
      (fun x hx => mass_pos q (n + 4) (n + 2) phi 2 le_rfl (by omega) degree_phi x hx)
    refine ⟨k, hk, fun v => ?_⟩
    rw [Galerkin.energy_form, formC, Complex.sq_norm, Complex.normSq_apply]
    have a := hle fun j => (v j).re
    have b := hle fun j => (v j).im
    have a' : k * (v i).re ^ 2 ≤ _ := a
    have b' : k * (v i).im ^ 2 ≤ _ := b
    linarith
  choose k hk h using key
  refine ⟨Finset.univ.inf' Finset.univ_nonempty k, (Finset.lt_inf'_iff _).2 fun i _ => hk i, fun v i => ?_⟩
  exact (mul_le_mul_of_nonneg_right (Finset.inf'_le _ (Finset.mem_univ i)) (by positivity)).trans (h i v)

/-- The conduction profile plus one basis function, in the mean mode. -/
noncomputable def oneMode {N : Fin 2 → ℕ} (bc : ℝ × ℝ) (n : ℕ) (z : RModes N) (j : Fin (n + 2)) : Temp (RModes N) (Fin (n + 2) → ℂ) :=
  ⟨Pi.single z (Pi.single j 1), Pi.single z (bc.1 : ℂ), Pi.single z (bc.2 : ℂ)⟩

/-- C80 is false for KMM_RB with its own matrices (the default quadrature of `TC`, KMM_RB.py:46): on every grid, as soon as the time step is small enough, some
basis function added to the conduction profile of a fluid at rest grows without bound. -/
theorem C80_kmm_rb_false {Q : Type*} (bc : ℝ × ℝ) (n : ℕ) : ∃ e0 : ℝ, 0 < e0 ∧ ∀ {N M : Fin 2 → ℕ} {L : Fin 2 → ℝ} (hN : ∀ i, 0 < N i) (_ : ∀ i, L i ≠ 0) (_ : ∀ i, N i ≤ M i)
    (c : Ctx (RModes N) (Fin n → ℂ) (Fin (n + 2) → ℂ)) (_ : c.G = waveGrid N L hN) (W : Wall (Fin n → ℂ) (Fin (n + 2) → ℂ) (Fin (n + 4) → ℂ) Q) (kind : ConvKind)
    (_ : c.conv = convection kind W (rspace N M) c.G) (_ : c.Sk = 0) (kappa : ℝ), 0 < kappa → 0 < c.dt → kappa * c.dt < e0 →
    ∀ la : LA (RModes N) (Fin n → ℂ) (Fin (n + 2) → ℂ), la.Solves c.nu c.dt c.G c.M →
    ∀ solveT, SolvesT (chebRB bc .GC .GL n c kappa (prodBwall .GC n (rspace N M)) (prodDwall .GC n (rspace N M))) 1 solveT →
    ∃ j : Fin (n + 2),
      let T0 := oneMode bc n c.G.zero j
      let s := fun m => (tickRB (chebRB bc .GC .GL n c kappa (prodBwall .GC n (rspace N M)) (prodDwall .GC n (rspace N M))) la solveT)^[m]
        ⟨⟨⟨0, 0, 0⟩, 0, ⟨0, 0, 0⟩, ⟨0, 0, 0⟩, ⟨0, 0, 0⟩, ⟨0, 0, 0⟩⟩, T0, T0, T0, 0, 0⟩
      let T := fun m => tempPoly ((s m).phi.d c.G.zero) ((s m).phi.p c.G.zero) ((s m).phi.q c.G.zero)
      (∀ m, (s m).s.U = ⟨0, 0, 0⟩) ∧ ∀ C : ℝ, ∃ m, C < Galerkin.energy .GC (n + 4) (T m - conduction bc) := by
  obtain ⟨k, hk, hle⟩ := energy_coeff .GC n
  obtain ⟨e0, he0, h⟩ := conduct_grows n
  refine ⟨e0, he0, fun {N M L} hN hL hNM c hG W kind hconv hS kappa hkappa hdt hlt la hla solveT hT => ?_⟩
  have hq := quiet_cheb (bc := bc) n hN hL hNM c hG W kind kappa (prodBwall .GC n (rspace N M)) (prodDwall .GC n (rspace N M)) hS hconv .GC .GL
  have hflat : Flat (rspace N M) c.G.zero := by rw [hG]; exact waveGrid_flat hN hNM
  obtain ⟨j, hj⟩ := h (chebRB bc .GC .GL n c kappa (prodBwall .GC n (rspace N M)) (prodDwall .GC n (rspace N M))) rfl rfl rfl rfl hkappa hdt hlt solveT hT hq.ksq
  refine ⟨j, ?_⟩
  intro T0 s T
  have hL0 : Layered (chebRB bc .GC .GL n c kappa (prodBwall .GC n (rspace N M)) (prodDwall .GC n (rspace N M))) ⟨0, 0, 0⟩ 0 T0 :=
    layered_start n c kappa _ _ _ _ T0 rfl rfl ⟨by simp [T0, oneMode], fun k hk => by simp [T0, oneMode, hk],
      by simp [T0, oneMode], fun k hk => by simp [T0, oneMode, hk]⟩
      fun k hk => by simp [T0, oneMode, hk]
  have step := conduct_orbit n (chebRB bc .GC .GL n c kappa (prodBwall .GC n (rspace N M)) (prodDwall .GC n (rspace N M))) rfl rfl hkappa hdt la hla solveT hT hq
    (prodBwall_rest .GC n hflat) (prodDwall_rest .GC n hflat)
    ⟨⟨⟨0, 0, 0⟩, 0, ⟨0, 0, 0⟩, ⟨0, 0, 0⟩, ⟨0, 0, 0⟩, ⟨0, 0, 0⟩⟩, T0, T0, T0, 0, 0⟩ rfl rfl rfl rfl hL0
  refine ⟨fun m => (step m).1.U, fun C => ?_⟩
  obtain ⟨m, i, hm⟩ := hj (|C| / k + 1)
  refine ⟨m, ?_⟩
  have hbc : HasBC bc c.G.zero (s m).phi := by
    rw [hG]
    exact hasBC_cheb n hN c hG kappa (prodBwall .GC n (rspace N M)) (prodDwall .GC n (rspace N M)) .GC .GL _ (step m).1.p (step m).1.q
  have e1 : T m - conduction bc = expandC phi ((s m).phi.d c.G.zero) := by
    show tempPoly _ _ _ - _ = _
    rw [hbc.1, hbc.2.2.1, tempPoly_conduction]
  have e2 : T0.d c.G.zero = Pi.single j 1 := by simp [T0, oneMode]
  have e3 := (step m).2
  rw [show (chebRB bc .GC .GL n c kappa (prodBwall .GC n (rspace N M)) (prodDwall .GC n (rspace N M))).c.G.zero = c.G.zero from rfl] at e3 hm
  replace e3 : (s m).phi.d c.G.zero = (fun x => solveT c.G.zero (tcMatvec
      (chebRB bc .GC .GL n c kappa (prodBwall .GC n (rspace N M)) (prodDwall .GC n (rspace N M))) 1 (2 / kappa / c.dt) x))^[m] (T0.d c.G.zero) := e3
  rw [e2] at e3
  replace hm : |C| / k + 1 < ‖(fun x => solveT c.G.zero (tcMatvec
      (chebRB bc .GC .GL n c kappa (prodBwall .GC n (rspace N M)) (prodDwall .GC n (rspace N M))) 1 (2 / kappa / c.dt) x))^[m] (Pi.single j 1) i‖ := hm
  rw [e1]
  refine lt_of_lt_of_le ?_ (hle _ i)
  rw [← e3] at hm
  have : |C| / k + 1 < ‖(s m).phi.d c.G.zero i‖ ^ 2 := by
    have : (0 : ℝ) ≤ |C| / k := by positivity
    nlinarith
  have := mul_lt_mul_of_pos_left this hk
  rw [mul_add, mul_div_cancel₀ _ hk.ne'] at this
  linarith [le_abs_self C]

/-- Heat conduction in a fluid at rest between plates, with both solvers: the solver with sub-steps reaches the mean of the wall temperatures at mid height from the initial profile
with the last basis function added; for KMM_RB some time step makes some basis function grow. -/
example (bc : ℝ × ℝ) (n : ℕ) {N : Fin 2 → ℕ} {L : Fin 2 → ℝ} (hN : ∀ i, 0 < N i) (hL : ∀ i, L i ≠ 0) (kind : ConvKind) :
    let c := fun dt : ℝ => (⟨1 / 100, dt, waveGrid N L hN, chebMats .GC n, none, convection kind (chebWall .GC n) (rspace N N) (waveGrid N L hN), 0⟩ :
      Ctx (RModes N) (Fin n → ℂ) (Fin (n + 2) → ℂ))
    let r := fun dt qT => chebRB bc .GC qT n (c dt) (1 / 50) (prodBwall .GC n (rspace N N)) (prodDwall .GC n (rspace N N))
    let T := lastMode bc n (waveGrid N L hN).zero
    (∃ la solveT, Tendsto (fun m => fieldT L ((integrateRB3 (r 10 .GC) (standardRB .GC n (chebWall .GC n) (rspace N N) (waveGrid N L hN)) la solveT)^[m]
      ⟨⟨⟨0, 0, 0⟩, 0, ⟨0, 0, 0⟩, 0, 0, 0, 0⟩, T, 0⟩).phi 0 0 0) atTop (𝓝 ((bc.1 + bc.2) / 2))) ∧
    ∃ dt : ℝ, 0 < dt ∧ ∃ la solveT j, ∀ C : ℝ, ∃ m,
      let s := (tickRB (r dt .GL) la solveT)^[m] ⟨⟨⟨0, 0, 0⟩, 0, ⟨0, 0, 0⟩, ⟨0, 0, 0⟩, ⟨0, 0, 0⟩, ⟨0, 0, 0⟩⟩, oneMode bc n (waveGrid N L hN).zero j,
        oneMode bc n (waveGrid N L hN).zero j, oneMode bc n (waveGrid N L hN).zero j, 0, 0⟩
      C < Galerkin.energy .GC (n + 4) (tempPoly (s.phi.d (waveGrid N L hN).zero) (s.phi.p (waveGrid N L hN).zero) (s.phi.q (waveGrid N L hN).zero) - conduction bc) := by
  intro c r T
  constructor
  · choose la hla using fun rk => (Galerkin.C75_kmmrk3 (κ := RModes N) .GC n (waveGrid N L hN) (1 / 100) 10 (by norm_num) (by norm_num) rk).exists
    choose solveT hT using fun rk => (Galerkin.C75_rb .GC n (r 10 .GC) rfl rfl (by norm_num [r, chebRB]) (by norm_num [r, chebRB, c]) (rkA rk + rkB rk) (Or.inr ⟨rk, rfl⟩)).exists
    refine ⟨la, solveT, ?_⟩
    obtain ⟨rho, -, -, h⟩ := C80_kmmrk3_rb (M := N) n hN hL (fun _ => le_rfl) (c 10) rfl (chebWall .GC n) kind rfl rfl (by norm_num [c]) (1 / 50) (by norm_num)
      _ _ la hla solveT hT
    have := (h ⟨⟨⟨0, 0, 0⟩, 0, ⟨0, 0, 0⟩, 0, 0, 0, 0⟩, T, 0⟩ rfl rfl
      ⟨by simp [T, lastMode, c], fun k hk => by simp [T, lastMode, show k ≠ (waveGrid N L hN).zero from hk],
        by simp [T, lastMode, c], fun k hk => by simp [T, lastMode, show k ≠ (waveGrid N L hN).zero from hk]⟩
      (fun k hk => by simp [T, lastMode, show k ≠ (waveGrid N L hN).zero from hk])).2.2 0 0 0
    rw [mul_zero, add_zero] at this
    exact this
  · obtain ⟨e0, he0, h⟩ := C80_kmm_rb_false (Q := _) bc n
    obtain ⟨la, hla, -⟩ := Galerkin.C75_kmm (κ := RModes N) .GC n (waveGrid N L hN) (1 / 100) e0 (by norm_num) he0
    obtain ⟨solveT, hT, -⟩ := Galerkin.C75_rb .GC n (r e0 .GL) rfl rfl (by norm_num [r, chebRB]) he0 1 (Or.inl rfl)
    obtain ⟨j, -, hj⟩ := h (M := N) hN hL (fun _ => le_rfl) (c e0) rfl (chebWall .GC n) kind rfl rfl (1 / 50) (by norm_num) he0
      (by show 1 / 50 * e0 < e0; linarith) la hla solveT hT
    exact ⟨e0, he0, la, solveT, j, hj⟩

end SpectralDNS.Channel

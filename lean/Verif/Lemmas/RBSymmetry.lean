import Verif.Lemmas.ChannelSymmetryRun
import Verif.Props.RBField
import Verif.Props.SymmetryFFT

/-! # The Rayleigh-Benard solvers and the motions of the channel, for the arrays -/

namespace SpectralDNS.Channel

open Polynomial Periodic

section

variable {κ X : Type*} [DecidableEq κ] {T : Space κ X} {G : Grid κ} {mask : κ → Bool} {σ : (κ → ℂ) →ₗ[ℝ] (κ → ℂ)} {s : Fin 2 → ℤˣ} {r : ℤˣ} {q : Quad} {n : ℕ}

/-- The motion leaves a constant as it is. -/
def FixesMean (σ : (κ → ℂ) →ₗ[ℝ] (κ → ℂ)) (G : Grid κ) : Prop := ∀ x : ℝ, σ (fun _ => (x : ℂ)) G.zero = x

theorem FixesMean.single (F : FixesMean σ G) (S : PlaneSymm T G mask σ s) (x : ℝ) : σ (fun k => if k = G.zero then (x : ℂ) else 0) = fun k => if k = G.zero then (x : ℂ) else 0 := by
  funext k
  by_cases hk : k = G.zero
  · subst hk
    rw [if_pos rfl, S.σ_congr _ (fun _ => (x : ℂ)) _ fun l hl => if_pos ((S.zero l).1 (hl.trans ((S.zero _).2 rfl))), F]
  · rw [if_neg hk]
    refine S.σ_local _ k fun l hl => if_neg ?_
    rintro rfl
    exact hk ((S.zero k).1 (hl.symm.trans ((S.zero _).2 rfl)))

/-- The boundary coefficients of `chebRB`. -/
def BCeq (G : Grid κ) (bc : ℝ × ℝ) {b : ℕ} (t : Temp κ (Fin b → ℂ)) : Prop :=
  (t.p = fun k => if k = G.zero then (bc.1 : ℂ) else 0) ∧ t.q = fun k => if k = G.zero then (bc.2 : ℂ) else 0

/-- The temperature `t'` is `t` after the motion. -/
structure RelT (G : Grid κ) (bc : ℝ × ℝ) (mask : κ → Bool) (σ : (κ → ℂ) →ₗ[ℝ] (κ → ℂ)) (r : ℤˣ) {b : ℕ} (t t' : Temp κ (Fin b → ℂ)) : Prop where
  d : t'.d = sgR r • lift σ r t.d
  hbc : BCeq G bc t
  hbc' : BCeq G bc t'
  van : VanA mask t.d

theorem dTdx_split (q : Quad) (n : ℕ) (d : Fin (n + 2) → ℂ) (p p' : ℂ) :
    dTdxHat q n d p p' = pCD q n d + fun i : Fin (n + 4) => if (i : ℕ) = 0 then 1 / 2 * (p - p') else 0 := by
  refine expandC_phi_injective (n + 4) (fun j => Chebyshev.T ℝ (j : ℤ)) 0 degree_cheb ?_
  rw [dTdxHat_eq, map_add, ← ctd_eq]
  have h1 : expandC (fun j => Chebyshev.T ℝ (j : ℤ)) ((chebWall q n).ctd d) = derivative (expandC phi d) := (C73_cheb_exact q n).ctd d
  have h2 : expandC (fun j => Chebyshev.T ℝ (j : ℤ)) (fun i : Fin (n + 4) => if (i : ℕ) = 0 then 1 / 2 * (p - p') else 0) = Polynomial.C (1 / 2 * (p - p')) := by
    rw [expandC_apply, Finset.sum_eq_single 0]
    · simp; rw [← Polynomial.C_1, Polynomial.smul_C]; simp
    · intro j _ hj
      have : (j : ℕ) ≠ 0 := fun h => hj (Fin.ext h)
      simp only [if_neg this, zero_smul]
    · simp
  rw [h1, h2, tempPoly]
  simp

/-- The gradient of the mean temperature. -/
noncomputable def meanGrad (G : Grid κ) (bc : ℝ × ℝ) (n : ℕ) : κ → Fin (n + 4) → ℂ := fun k i => if k = G.zero then (if (i : ℕ) = 0 then ((1 / 2 * (bc.1 - bc.2) : ℝ) : ℂ) else 0) else 0

theorem meanGrad_lift (F : FixesMean σ G) (S : PlaneSymm T G mask σ s) (bc : ℝ × ℝ) : lift σ r (meanGrad G bc n) = meanGrad G bc n := by
  funext k i
  rw [lift_apply]
  by_cases hi : (i : ℕ) = 0
  · simp only [meanGrad, hi, if_true, pow_zero, Complex.ofReal_one, one_mul]
    exact congrFun (F.single S _) k
  · simp only [meanGrad, hi, if_false, ite_self]
    have : σ (fun _ : κ => (0 : ℂ)) = 0 := map_zero σ
    rw [this]; simp

theorem dTdx_eq {bc : ℝ × ℝ} {t : Temp κ (Fin (n + 2) → ℂ)} (h : BCeq G bc t) :
    (fun k => dTdxHat q n (t.d k) (t.p k) (t.q k)) = (fun k => pCD q n (t.d k)) + meanGrad G bc n := by
  funext k
  rw [dTdx_split, h.1, h.2]
  funext i
  simp only [Pi.add_apply, meanGrad]
  congr 1
  by_cases hk : k = G.zero <;> by_cases hi : (i : ℕ) = 0 <;> simp [hk, hi]

theorem meanGrad_van (S : PlaneSymm T G mask σ s) (bc : ℝ × ℝ) : VanA mask (meanGrad G bc n) := fun k hk => by
  have : k ≠ G.zero := by rintro rfl; rw [S.keepZero] at hk; exact absurd hk (by simp)
  funext i; simp [meanGrad, this]

theorem dTdx_moved (F : FixesMean σ G) (S : PlaneSymm T G mask σ s) {bc : ℝ × ℝ} {t t' : Temp κ (Fin (n + 2) → ℂ)} (R : RelT G bc mask σ r t t') :
    (fun k => dTdxHat q n (t'.d k) (t'.p k) (t'.q k)) = sgR 1 • lift σ r fun k => dTdxHat q n (t.d k) (t.p k) (t.q k) := by
  rw [dTdx_eq R.hbc, dTdx_eq R.hbc', map_add, meanGrad_lift F S, R.d, (par_pCD q n).one, sgR_one, one_smul, sgR_mul, sgR_mul_self, one_smul]

theorem standardRB_prod (S : PlaneSymm T G mask σ s) (U : Vel κ (Fin n → ℂ) (Fin (n + 2) → ℂ)) (t : Temp κ (Fin (n + 2) → ℂ)) :
    standardRB q n (chebWall q n) T G U t = fun k => (chebMats q n).BDD ((prodA q n T psi (fun j => Chebyshev.T ℝ (j : ℤ)) U.u (fun k => dTdxHat q n (t.d k) (t.p k) (t.q k))
      + prodA q n T phi phi U.v (ik G.K1 t.d) + prodA q n T phi phi U.w (ik G.K2 t.d)) k) := by
  unfold standardRB
  simp only [fwdD_add' q n S]
  rfl

theorem standardRB_moved (F : FixesMean σ G) (S : PlaneSymm T G mask σ s) {bc : ℝ × ℝ} {U : Vel κ (Fin n → ℂ) (Fin (n + 2) → ℂ)} (hU : VanVel mask U)
    {t t' : Temp κ (Fin (n + 2) → ℂ)} (R : RelT G bc mask σ r t t') :
    keepA mask (standardRB q n (chebWall q n) T G (moveVel σ r s U) t') = sgR r • lift σ r (keepA mask (standardRB q n (chebWall q n) T G U t)) := by
  obtain ⟨hu, hv, hw⟩ := hU
  have hd : VanA mask fun k => dTdxHat q n (t.d k) (t.p k) (t.q k) := by
    rw [dTdx_eq R.hbc]
    intro k hk
    rw [Pi.add_apply, R.van k hk, map_zero, meanGrad_van S bc k hk, add_zero]
  have hm := dTdx_moved (q := q) F S R
  rw [standardRB_prod S, standardRB_prod S, hm]
  simp only [keepA_map, R.d, moveVel, keepA_add, S.ik1, S.ik2, S.prod q n (hasPar_psi r) (hasPar_T r) hu hd,
    S.prod q n (hasPar_phi r) (hasPar_phi r) hv (R.van.ik _), S.prod q n (hasPar_phi r) (hasPar_phi r) hw (R.van.ik _)]
  rw [← (par_BDD q n).zero]
  have e : ∀ i, sgR (s i) * (sgR r * sgR (s i)) = sgR r := fun i => by rw [mul_comm (sgR r), ← mul_assoc, sgR_mul_self, one_mul]
  simp only [sgR_mul, e, mul_one, sgR_one, map_add, smul_add]

theorem buoyancy_bare (S : PlaneSymm T G mask σ s) {bc : ℝ × ℝ} {qT : Quad} {c : Ctx κ (Fin n → ℂ) (Fin (n + 2) → ℂ)} {kappa : ℝ} {prodB prodD} (hG : c.G = G)
    (hM : c.M = chebMats q n) {t : Temp κ (Fin (n + 2) → ℂ)} (h : BCeq G bc t) :
    buoyancy (chebRB bc q qT n c kappa prodB prodD) t = fun k => ((-G.Ksq k : ℝ) : ℂ) • (chebMats q n).BBD (t.d k) := by
  funext k
  have hz : G.Ksq G.zero = 0 := (S.zero _).2 rfl
  have h1 : t.p k * (G.Ksq k : ℂ) = 0 ∧ t.q k * (G.Ksq k : ℂ) = 0 := by
    rw [h.1, h.2]
    by_cases hk : k = G.zero
    · rw [hk, hz]; simp
    · simp [hk]
  simp only [buoyancy, chebRB, hG, hM]
  rw [show ∀ b : ℂ, (0.5 * b * (t.p k + t.q k) * (G.Ksq k : ℂ) : ℂ) = 0.5 * b * (t.p k * G.Ksq k + t.q k * G.Ksq k) from fun b => by ring,
    show ∀ b : ℂ, (0.5 * b * (t.p k - t.q k) * (G.Ksq k : ℂ) : ℂ) = 0.5 * b * (t.p k * G.Ksq k - t.q k * G.Ksq k) from fun b => by ring, h1.1, h1.2]
  simp

theorem buoyancy_moved (S : PlaneSymm T G mask σ s) {bc : ℝ × ℝ} {qT : Quad} {c : Ctx κ (Fin n → ℂ) (Fin (n + 2) → ℂ)} {kappa : ℝ} {prodB prodD} (hG : c.G = G)
    (hM : c.M = chebMats q n) {t t' : Temp κ (Fin (n + 2) → ℂ)} (R : RelT G bc mask σ r t t') (a : ℝ) :
    (fun k => (a : ℂ) • buoyancy (chebRB bc q qT n c kappa prodB prodD) t' k) = sgR r • lift σ r fun k => (a : ℂ) • buoyancy (chebRB bc q qT n c kappa prodB prodD) t k := by
  rw [buoyancy_bare S hG hM R.hbc, buoyancy_bare S hG hM R.hbc']
  have h1 := S.real (r := r) (fun x => -x) fun k => (chebMats q n).BBD (t.d k)
  have h2 := (par_BBD (σ := σ) (r := r) q n).zero r t.d
  have e : ∀ v : κ → Fin n → ℂ, (fun k => (a : ℂ) • v k) = a • v := fun v => rfl
  rw [e, e, map_smul, ← h1, smul_comm]
  congr 1
  funext k
  have h3 := congrFun h2 k
  simp only [Pi.smul_apply] at h3 ⊢
  rw [R.d, smul_comm (sgR r), ← h3]
  rfl

theorem buoyancy_van (S : PlaneSymm T G mask σ s) {bc : ℝ × ℝ} {qT : Quad} {c : Ctx κ (Fin n → ℂ) (Fin (n + 2) → ℂ)} {kappa : ℝ} {prodB prodD} (hG : c.G = G)
    (hM : c.M = chebMats q n) {t : Temp κ (Fin (n + 2) → ℂ)} (h : BCeq G bc t) (hv : VanA mask t.d) (a : ℝ) :
    VanA mask fun k => (a : ℂ) • buoyancy (chebRB bc q qT n c kappa prodB prodD) t k := fun k hk => by
  rw [buoyancy_bare S hG hM h]
  simp only [hv k hk, map_zero, smul_zero]

omit [DecidableEq κ] in
theorem maskT_keep (m : κ → Bool) {b : ℕ} (N : κ → Fin b → ℂ) : maskT (some fun k => if m k then (1 : ℝ) else 0) N = keepA m N := by
  funext k
  by_cases hk : m k = true <;> simp [maskT, keepA, hk]

omit [DecidableEq κ] in
/-- The temperature solver and `TC` commute with the motions. -/
theorem solveT_moved (S : PlaneSymm T G mask σ s) (q : Quad) (cT : ℝ) (solveT : κ → (Fin (n + 2) → ℂ) → Fin (n + 2) → ℂ)
    (h : ∀ k b, -(chebMats q n).ADD (solveT k b) + ((G.Ksq k + cT : ℝ) : ℂ) • (chebMats q n).BDD (solveT k b) = b) (t : ℝ) (b : κ → Fin (n + 2) → ℂ) :
    (fun k => solveT k ((t • lift σ r b) k)) = t • lift σ r fun k => solveT k (b k) := by
  refine solve_lift (fun k => -(chebMats q n).ADD + ((G.Ksq k + cT : ℝ) : ℂ) • (chebMats q n).BDD) (fun v => ?_) solveT h t b
  have h := S.helmholtz (r := r) q n (-1) (fun x => x + cT) 1 v
  simp only [one_smul] at h
  have e : ∀ (k : κ) (v : Fin (n + 2) → ℂ), (-(chebMats q n).ADD + ((G.Ksq k + cT : ℝ) : ℂ) • (chebMats q n).BDD) v =
      helmholtzCoeff (chebMats q n) (-1) (G.Ksq k + cT) v := fun k v => by
    simp only [helmholtzCoeff, LinearMap.add_apply, LinearMap.neg_apply, LinearMap.smul_apply, Complex.ofReal_neg, Complex.ofReal_one, neg_smul, one_smul]
  simp only [e]
  exact h

omit [DecidableEq κ] in
theorem solveT_van (q : Quad) (cT : ℝ) (solveT : κ → (Fin (n + 2) → ℂ) → Fin (n + 2) → ℂ)
    (h : ∀ k b, -(chebMats q n).ADD (solveT k b) + ((G.Ksq k + cT : ℝ) : ℂ) • (chebMats q n).BDD (solveT k b) = b) {b : κ → Fin (n + 2) → ℂ} (hb : VanA mask b) :
    VanA mask fun k => solveT k (b k) := fun k hk => by
  refine solve_unique (-(chebMats q n).ADD + ((G.Ksq k + cT : ℝ) : ℂ) • (chebMats q n).BDD) (solveT k) (h k) _ _ ?_
  rw [map_zero, hb k hk]

omit [DecidableEq κ] in
/-- The right-hand side of the temperature. -/
theorem tempRHS_moved (S : PlaneSymm T G mask σ s) (qT : Quad) (a b : ℝ) {N N' d d' : κ → Fin (n + 2) → ℂ} (hN : N' = sgR r • lift σ r N) (hd : d' = sgR r • lift σ r d) :
    (fun k => (a : ℂ) • N' k + helmholtzCoeff (chebMats qT n) 1 (b - G.Ksq k) (d' k)) =
      sgR r • lift σ r fun k => (a : ℂ) • N k + helmholtzCoeff (chebMats qT n) 1 (b - G.Ksq k) (d k) := by
  have h1 := S.helmholtz (r := r) qT n 1 (fun x => b - x) (sgR r) d
  have e : ∀ N d : κ → Fin (n + 2) → ℂ, (fun k => (a : ℂ) • N k + helmholtzCoeff (chebMats qT n) 1 (b - G.Ksq k) (d k)) =
      a • N + fun k => helmholtzCoeff (chebMats qT n) 1 ((fun x => b - x) (G.Ksq k)) (d k) := fun N d => rfl
  rw [e, e, map_add, map_smul, smul_add, ← h1, hN, hd, smul_comm]

omit [DecidableEq κ] in
theorem tempRHS_van (qT : Quad) (a b : ℝ) {N d : κ → Fin (n + 2) → ℂ} (hN : VanA mask N) (hd : VanA mask d) :
    VanA mask fun k => (a : ℂ) • N k + helmholtzCoeff (chebMats qT n) 1 (b - G.Ksq k) (d k) := fun k hk => by
  simp only [hN k hk, hd k hk, helmholtzCoeff, map_zero, smul_zero, add_zero]

/-! ## KMMRK3_RB -/

variable {c : Ctx κ (Fin n → ℂ) (Fin (n + 2) → ℂ)} {kind : ConvKind} {bc : ℝ × ℝ} {qT : Quad} {kappa : ℝ}
  {prodB : Temp κ (Fin (n + 2) → ℂ) → (κ → Fin n → ℂ) → κ → Fin n → ℂ} {prodD : Temp κ (Fin (n + 2) → ℂ) → (κ → Fin (n + 2) → ℂ) → κ → Fin (n + 2) → ℂ}

/-- Velocity, vorticity and temperature of `x'` are those of `x` after the motion. -/
structure RelRB3 (G : Grid κ) (bc : ℝ × ℝ) (mask : κ → Bool) (σ : (κ → ℂ) →ₗ[ℝ] (κ → ℂ)) (r : ℤˣ) (s : Fin 2 → ℤˣ) (x x' : RB3St κ (Fin n → ℂ) (Fin (n + 2) → ℂ)) : Prop where
  vel : Rel3 mask σ r s x.s x'.s
  temp : RelT G bc mask σ r x.phi x'.phi

/-- What the previous substep left, too. -/
structure OldRB3 (G : Grid κ) (mask : κ → Bool) (σ : (κ → ℂ) →ₗ[ℝ] (κ → ℂ)) (r : ℤˣ) (s : Fin 2 → ℤˣ) (x x' : RB3St κ (Fin n → ℂ) (Fin (n + 2) → ℂ)) : Prop where
  vel : Old3 G mask σ r s x.s x'.s
  N0 : x'.N0 = sgR r • lift σ r x.N0
  van : VanA mask x.N0

theorem substepRB_moved (C : Moves q kind T mask σ s c) (F : FixesMean σ c.G) {la : Fin 3 → LA κ (Fin n → ℂ) (Fin (n + 2) → ℂ)}
    {solveT : Fin 3 → κ → (Fin (n + 2) → ℂ) → Fin (n + 2) → ℂ} (rk : Fin 3) (hla : (la rk).Solves3 c.nu c.dt (rkA rk + rkB rk) c.G c.M)
    (hsT : SolvesT (chebRB bc q qT n c kappa prodB prodD) (rkA rk + rkB rk) (solveT rk))
    {x x' : RB3St κ (Fin n → ℂ) (Fin (n + 2) → ℂ)} (R : RelRB3 c.G bc mask σ r s x x') (O : rkB rk = 0 ∨ OldRB3 c.G mask σ r s x x') :
    RelRB3 c.G bc mask σ r s (substepRB (chebRB bc q qT n c kappa prodB prodD) (standardRB q n (chebWall q n) T c.G) la solveT rk x)
      (substepRB (chebRB bc q qT n (moveCtx σ r s c) kappa prodB prodD) (standardRB q n (chebWall q n) T c.G) la solveT rk x') ∧
    OldRB3 c.G mask σ r s (substepRB (chebRB bc q qT n c kappa prodB prodD) (standardRB q n (chebWall q n) T c.G) la solveT rk x)
      (substepRB (chebRB bc q qT n (moveCtx σ r s c) kappa prodB prodD) (standardRB q n (chebWall q n) T c.G) la solveT rk x') := by
  have S := C.plane
  have hb := buoyancy_moved (kappa := kappa) (qT := qT) (prodB := prodB) (prodD := prodD) S rfl C.mats R.temp (c.dt * (rkA rk + rkB rk))
  have hbv := buoyancy_van (kappa := kappa) (qT := qT) (prodB := prodB) (prodD := prodD) S rfl C.mats R.temp.hbc R.temp.van (c.dt * (rkA rk + rkB rk))
  have hv := substepF_moved C rk hla R.vel (O.imp id OldRB3.vel) hb hbv
  have hN : maskT c.mask (standardRB q n (chebWall q n) T c.G x'.s.U x'.phi) = sgR r • lift σ r (maskT c.mask (standardRB q n (chebWall q n) T c.G x.s.U x.phi)) := by
    rw [C.mask, maskT_keep, maskT_keep, R.vel.U]
    exact standardRB_moved F S R.vel.vanU R.temp
  have hNv : VanA mask (maskT c.mask (standardRB q n (chebWall q n) T c.G x.s.U x.phi)) := by
    rw [C.mask, maskT_keep]; exact keepA_van _ _
  have ob : ((rkB rk : ℂ) • x'.N0 = sgR r • lift σ r ((rkB rk : ℂ) • x.N0)) ∧ VanA mask ((rkB rk : ℂ) • x.N0) := by
    rcases O with h0 | O
    · simp only [h0, Complex.ofReal_zero, zero_smul, map_zero, smul_zero, true_and]
      exact fun _ _ => rfl
    · have e : ∀ a : κ → Fin (n + 2) → ℂ, (rkB rk : ℂ) • a = rkB rk • a := fun a => rfl
      exact ⟨by rw [e, e, map_smul, O.N0, smul_comm], fun k hk => by rw [Pi.smul_apply, O.van k hk, smul_zero]⟩
  have hT := tempRHS_moved S qT (-2 / kappa / (rkA rk + rkB rk)) (2 / kappa / c.dt / (rkA rk + rkB rk))
    (N := fun k => (rkA rk : ℂ) • maskT c.mask (standardRB q n (chebWall q n) T c.G x.s.U x.phi) k + (rkB rk : ℂ) • x.N0 k)
    (N' := fun k => (rkA rk : ℂ) • maskT c.mask (standardRB q n (chebWall q n) T c.G x'.s.U x'.phi) k + (rkB rk : ℂ) • x'.N0 k) (by
      have e : ∀ a b : κ → Fin (n + 2) → ℂ, (fun k => (rkA rk : ℂ) • a k + (rkB rk : ℂ) • b k) = rkA rk • a + (rkB rk : ℂ) • b := fun a b => rfl
      rw [e, e, map_add, map_smul, hN, ob.1, smul_add, smul_comm]) R.temp.d
  have hTv := tempRHS_van (G := c.G) qT (-2 / kappa / (rkA rk + rkB rk)) (2 / kappa / c.dt / (rkA rk + rkB rk))
    (N := fun k => (rkA rk : ℂ) • maskT c.mask (standardRB q n (chebWall q n) T c.G x.s.U x.phi) k + (rkB rk : ℂ) • x.N0 k)
    (fun k hk => by simp only [hNv k hk, smul_zero, zero_add]; exact ob.2 k hk) R.temp.van
  have hsys : ∀ k b, -(chebMats .GC n).ADD (solveT rk k b) + ((c.G.Ksq k + 2 / kappa / (rkA rk + rkB rk) / c.dt : ℝ) : ℂ) • (chebMats .GC n).BDD (solveT rk k b) = b := hsT
  have hS := fun b => solveT_moved (r := r) S .GC _ (solveT rk) hsys (sgR r) b
  have hS := hS fun k => ((-2 / kappa / (rkA rk + rkB rk) : ℝ) : ℂ) • ((rkA rk : ℂ) • maskT c.mask (standardRB q n (chebWall q n) T c.G x.s.U x.phi) k + (rkB rk : ℂ) • x.N0 k)
    + helmholtzCoeff (chebMats qT n) 1 (2 / kappa / c.dt / (rkA rk + rkB rk) - c.G.Ksq k) (x.phi.d k)
  rw [← hT] at hS
  refine ⟨⟨hv.1, ⟨?_, ⟨rfl, rfl⟩, ⟨rfl, rfl⟩, ?_⟩⟩, ⟨hv.2, hN, hNv⟩⟩
  · exact hS
  · exact solveT_van .GC _ (solveT rk) hsys hTv

theorem integrateRB3_moved (C : Moves q kind T mask σ s c) (F : FixesMean σ c.G) {la : Fin 3 → LA κ (Fin n → ℂ) (Fin (n + 2) → ℂ)}
    {solveT : Fin 3 → κ → (Fin (n + 2) → ℂ) → Fin (n + 2) → ℂ} (hla : ∀ rk, (la rk).Solves3 c.nu c.dt (rkA rk + rkB rk) c.G c.M)
    (hsT : ∀ rk, SolvesT (chebRB bc q qT n c kappa prodB prodD) (rkA rk + rkB rk) (solveT rk))
    {x x' : RB3St κ (Fin n → ℂ) (Fin (n + 2) → ℂ)} (R : RelRB3 c.G bc mask σ r s x x') (m : ℕ) :
    RelRB3 c.G bc mask σ r s ((integrateRB3 (chebRB bc q qT n c kappa prodB prodD) (standardRB q n (chebWall q n) T c.G) la solveT)^[m] x)
      ((integrateRB3 (chebRB bc q qT n (moveCtx σ r s c) kappa prodB prodD) (standardRB q n (chebWall q n) T c.G) la solveT)^[m] x') := by
  induction m with
  | zero => exact R
  | succ m ih =>
    rw [Function.iterate_succ_apply', Function.iterate_succ_apply']
    have h0 := substepRB_moved C F 0 (hla 0) (hsT 0) ih (Or.inl rfl)
    have h1 := substepRB_moved C F 1 (hla 1) (hsT 1) h0.1 (Or.inr h0.2)
    exact (substepRB_moved C F 2 (hla 2) (hsT 2) h1.1 (Or.inr h1.2)).1

/-! ## KMM_RB -/

/-- A constant. -/
def constArr (G : Grid κ) (x : ℝ) : κ → ℂ := fun k => if k = G.zero then (x : ℂ) else 0

/-- Products with a constant: the transforms return a moved array. -/
def ConstMul (T : Space κ X) (G : Grid κ) (mask : κ → Bool) (σ : (κ → ℂ) →ₗ[ℝ] (κ → ℂ)) : Prop :=
  ∀ (x : ℝ) (b : κ → ℂ), pr T (some mask) (constArr G x) (σ b) = x • σ b

/-- The temperature in the planes. -/
noncomputable def tl (n : ℕ) (t : Temp κ (Fin (n + 2) → ℂ)) (l : Fin (n + 4)) : κ → ℂ := fun k =>
  (tempPoly (t.d k) (t.p k) (t.q k)).eval ((quadPoint .GC (n + 4) l : ℝ) : ℂ)

theorem tl_eq {t : Temp κ (Fin (n + 2) → ℂ)} (h : BCeq G bc t) (l : Fin (n + 4)) :
    tl n t l = pl .GC n phi t.d l + constArr G (1 / 2 * (bc.1 + bc.2) + 1 / 2 * (bc.1 - bc.2) * quadPoint .GC (n + 4) l) := by
  funext k
  simp only [tl, tempPoly, h.1, h.2, eval_add, eval_mul, eval_C, eval_X, Pi.add_apply, pl, constArr]
  congr 1
  by_cases hk : k = G.zero
  · simp only [hk, if_true]; push_cast; ring
  · simp [hk]

/-- What the exchange of the walls adds to the temperature. -/
noncomputable def shiftT (r : ℤˣ) (bc : ℝ × ℝ) : ℝ := (1 - sgR r) / 2 * (bc.1 + bc.2)

theorem tl_moved (F : FixesMean σ G) (S : PlaneSymm T G mask σ s) {t t' : Temp κ (Fin (n + 2) → ℂ)} (R : RelT G bc mask σ r t t') (l : Fin (n + 4)) :
    tl n t' l = sgR r • σ (tl n t (oppose r l)) + constArr G (shiftT r bc) := by
  have hs : ∀ x, σ (constArr G x) = constArr G x := fun x => F.single S x
  rw [tl_eq R.hbc, tl_eq R.hbc', R.d, pl_lift .GC n (hasPar_phi r), map_add, hs, smul_add, add_assoc]
  congr 1
  funext k
  have hq := quadPoint_oppose r .GC n l
  have h2 := sgR_mul_self r
  simp only [Pi.add_apply, Pi.smul_apply, constArr, hq, shiftT]
  by_cases hk : k = G.zero
  · simp only [hk, if_true, Complex.real_smul, ← Complex.ofReal_mul, ← Complex.ofReal_add, Complex.ofReal_inj]
    linear_combination (-(1 / 2 * (bc.1 - bc.2) * quadPoint .GC (n + 4) l)) * h2
  · simp [hk]

/-- A product with the temperature. -/
noncomputable def prodW (q : Quad) (n : ℕ) (T : Space κ X) (f : ℕ → ℝ[X]) {a : ℕ} (t : Temp κ (Fin (n + 2) → ℂ)) (u : κ → Fin a → ℂ) : κ → Fin a → ℂ := fun k =>
  forwardWall q (n + 4) f fun l => T.forward (fun p => T.backward (tl n t l) p * T.backward (pl q n f u l) p) k

omit [DecidableEq κ] in
theorem keepA_prodW (f : ℕ → ℝ[X]) {a : ℕ} (t : Temp κ (Fin (n + 2) → ℂ)) (u : κ → Fin a → ℂ) (m : κ → Bool) :
    keepA m (prodW q n T f t u) = fun k => forwardWall q (n + 4) f fun l => pr T (some m) (tl n t l) (pl q n f u l) k := by
  funext k
  by_cases hk : m k = true
  · simp only [keepA, hk, if_true, prodW, pr, keepL, keeps, LinearMap.coe_mk, AddHom.coe_mk]
  · simp only [keepA, hk, pr, keepL, keeps, LinearMap.coe_mk, AddHom.coe_mk]
    exact (map_zero _).symm

omit [DecidableEq κ] in
theorem pr_add_left (S : PlaneSymm T G mask σ s) (a b c : κ → ℂ) : pr T (some mask) (a + b) c = pr T (some mask) a c + pr T (some mask) b c := by
  have hb : ∀ p, T.backward (a + b) p = T.backward a p + T.backward b p := fun p => congrFun (S.add.backward a b) p
  unfold pr
  simp only [hb, add_mul]
  rw [S.add.forward, ← map_add]
  rfl

theorem forwardWall_pl (q : Quad) {f : ℕ → ℝ[X]} {a s' : ℕ} (hN : a + s' ≤ n + 4) (hf : ∀ j, (f j).degree = (j + s' : ℕ)) (u : κ → Fin a → ℂ) (k : κ) :
    forwardWall q (n + 4) f (fun l => pl q n f u l k) = u k := by
  have h := mass_inv q (n + 4) a f s' hN (by omega) hf (u k)
  rw [← h]
  rw [forwardWall, LinearMap.comp_apply]
  congr 1
  funext i
  simp only [LinearMap.pi_apply, LinearMap.sum_apply, LinearMap.smul_apply, LinearMap.proj_apply, scalarProduct, leval_apply]
  rw [Finset.sum_range fun j => (((quadWeight q (n + 4) j * (f i).eval (quadPoint q (n + 4) j) : ℝ) : ℂ) • (expandC f (u k)).eval (quadPoint q (n + 4) j : ℂ))]
  rfl

theorem prodW_moved (F : FixesMean σ G) (S : PlaneSymm T G mask σ s) (K : ConstMul T G mask σ) {f : ℕ → ℝ[X]} {a s' : ℕ} (hp : HasPar r 0 f) (hN : a + s' ≤ n + 4)
    (hf : ∀ j, (f j).degree = (j + s' : ℕ)) {t t' : Temp κ (Fin (n + 2) → ℂ)} (R : RelT G bc mask σ r t t') {u : κ → Fin a → ℂ} (hu : VanA mask u) (y : ℤˣ) :
    keepA mask (prodW q n T f t' (sgR y • lift σ r u)) = sgR (r * y) • lift σ r (keepA mask (prodW q n T f t u)) + shiftT r bc • sgR y • lift σ r u := by
  have hv : ∀ l, Vanishes (some mask) (tl n t l) := fun l => by
    rw [tl_eq R.hbc]
    intro k hk
    have : k ≠ G.zero := by
      rintro rfl
      have h0 := S.keepZero
      simp [keeps, h0] at hk
    rw [Pi.add_apply, pl_van .GC n R.van l k hk, constArr, if_neg this, add_zero]
  have h1 : ∀ l, pr T (some mask) (tl n t' l) (pl q n f (sgR y • lift σ r u) l) =
      sgR (r * y) • σ (pr T (some mask) (tl n t (oppose r l)) (pl q n f u (oppose r l))) + shiftT r bc • pl q n f (sgR y • lift σ r u) l := fun l => by
    rw [tl_moved F S R, pr_add_left S, pl_lift q n hp, pr_sg S.add, S.symm.product _ _ (hv _) (pl_van q n hu _), sgR_mul]
    congr 1
    rw [pr_sg_right S.add, K, smul_comm]
  have h2 := forwardWall_lift (σ := σ) q n a s' hp hN hf fun l => pr T (some mask) (tl n t l) (pl q n f u l)
  funext k
  rw [keepA_prodW, keepA_prodW]
  simp only [h1]
  have h3 : (fun l => (sgR (r * y) • σ (pr T (some mask) (tl n t (oppose r l)) (pl q n f u (oppose r l))) + shiftT r bc • pl q n f (sgR y • lift σ r u) l) k) =
      sgR (r * y) • (fun l => σ (pr T (some mask) (tl n t (oppose r l)) (pl q n f u (oppose r l))) k) + shiftT r bc • fun l => pl q n f (sgR y • lift σ r u) l k := rfl
  rw [h3, map_add, LinearMap.map_smul_of_tower, LinearMap.map_smul_of_tower, forwardWall_pl q hN hf, congrFun h2 k]
  rfl

theorem divRB_moved (F : FixesMean σ G) (S : PlaneSymm T G mask σ s) (K : ConstMul T G mask σ) (hG : c.G = G) (hM : c.M = chebMats q n)
    {t t' : Temp κ (Fin (n + 2) → ℂ)} (R : RelT G bc mask σ r t t') {U : Vel κ (Fin n → ℂ) (Fin (n + 2) → ℂ)} (hU : VanVel mask U)
    (hc : r = 1 ∨ ∀ k, SpectralDNS.Spec.Channel.Continuity (chebMats q n).BDD (chebMats q n).CDB (G.K1 k) (G.K2 k) (U.u k) (U.v k) (U.w k)) :
    keepA mask (divRB (chebRB bc q qT n c kappa (prodBwall q n T) (prodDwall q n T)) (moveVel σ r s U) t') =
      sgR r • lift σ r (keepA mask (divRB (chebRB bc q qT n c kappa (prodBwall q n T) (prodDwall q n T)) U t)) := by
  obtain ⟨hu, hv, hw⟩ := hU
  have e : ∀ (U : Vel κ (Fin n → ℂ) (Fin (n + 2) → ℂ)) t, divRB (chebRB bc q qT n c kappa (prodBwall q n T) (prodDwall q n T)) U t =
      (fun k => (chebMats q n).CDB (prodW q n T psi t U.u k)) + (fun k => (chebMats q n).BDD (ik G.K1 (prodW q n T phi t U.v) k)) +
        fun k => (chebMats q n).BDD (ik G.K2 (prodW q n T phi t U.w) k) := fun U t => by
    subst hG
    funext k
    simp only [divRB, chebRB, hM]
    rfl
  have ea : ∀ (Kk : κ → ℝ) (x y : κ → Fin (n + 2) → ℂ), ik Kk (x + y) = ik Kk x + ik Kk y := fun Kk x y => by funext k; simp [ik]
  have es : ∀ (Kk : κ → ℝ) (x : κ → Fin (n + 2) → ℂ), ik Kk (shiftT r bc • x) = shiftT r bc • ik Kk x := fun Kk x => by
    funext k; simp only [ik, Pi.smul_apply, smul_comm (shiftT r bc)]
  have pa : ∀ {a b : ℕ} (P : (Fin b → ℂ) →ₗ[ℂ] (Fin a → ℂ)) (x y : κ → Fin b → ℂ), (fun k => P ((x + y) k)) = (fun k => P (x k)) + fun k => P (y k) :=
    fun P x y => by funext k; simp
  have ps : ∀ {a b : ℕ} (P : (Fin b → ℂ) →ₗ[ℂ] (Fin a → ℂ)) (x : κ → Fin b → ℂ), (fun k => P ((shiftT r bc • x) k)) = shiftT r bc • fun k => P (x k) :=
    fun P x => by funext k; exact LinearMap.map_smul_of_tower P (shiftT r bc) (x k)
  have h1 := (par_CDB (σ := σ) (r := r) q n).one r U.u
  have h2 := (par_BDD (σ := σ) (r := r) q n).zero (s 0 * s 0) (ik G.K1 U.v)
  have h3 := (par_BDD (σ := σ) (r := r) q n).zero (s 1 * s 1) (ik G.K2 U.w)
  rw [sgR_mul, sgR_mul_self, one_smul] at h1 h2 h3
  have hrest : shiftT r bc • ((fun k => (chebMats q n).CDB (U.u k)) + (fun k => (chebMats q n).BDD (ik G.K1 U.v k)) + fun k => (chebMats q n).BDD (ik G.K2 U.w k)) = 0 := by
    rcases hc with h | hc
    · simp [shiftT, h, sgR_one]
    · have : (fun k => (chebMats q n).CDB (U.u k)) + (fun k => (chebMats q n).BDD (ik G.K1 U.v k)) + (fun k => (chebMats q n).BDD (ik G.K2 U.w k)) = 0 := by
        funext k
        have := hc k
        rw [SpectralDNS.Spec.Channel.Continuity, map_add, ← add_assoc] at this
        exact this
      rw [this, smul_zero]
  have hrest := congrArg (lift σ r) hrest
  rw [map_smul, map_add, map_add, map_zero] at hrest
  have p1 := prodW_moved (q := q) F S K (hasPar_psi r) le_rfl degree_psi R hu r
  have p2 := prodW_moved (q := q) (n := n) (a := n + 2) (s' := 2) F S K (hasPar_phi r) (by omega) degree_phi R hv (s 0)
  have p3 := prodW_moved (q := q) (n := n) (a := n + 2) (s' := 2) F S K (hasPar_phi r) (by omega) degree_phi R hw (s 1)
  rw [e, e]
  simp only [keepA_add, keepA_map, keepA_ik, moveVel]
  rw [p1, p2, p3]
  simp only [ea, es, pa, ps, S.ik1, S.ik2, (par_CDB q n).one, (par_BDD q n).zero, map_add, smul_add]
  have e1 : sgR (r * r * r) = sgR r := by simp only [sgR_mul, sgR_mul_self, one_mul]
  have e2 : ∀ i, sgR (r * s i * s i) = sgR r := fun i => by simp only [sgR_mul, mul_assoc, sgR_mul_self, mul_one]
  have e3 : ∀ z : ℤˣ, sgR (z * z) = 1 := fun z => by rw [sgR_mul, sgR_mul_self]
  rw [e1, e2, e2, e3, e3, e3, one_smul, one_smul, one_smul]
  rw [smul_add, smul_add] at hrest
  linear_combination (norm := module) hrest

/-- The levels of KMM_RB are moved. -/
structure RelRB (c : Ctx κ (Fin n → ℂ) (Fin (n + 2) → ℂ)) (bc : ℝ × ℝ) (mask : κ → Bool) (σ : (κ → ℂ) →ₗ[ℝ] (κ → ℂ)) (r : ℤˣ) (s : Fin 2 → ℤˣ)
    (x x' : RBSt κ (Fin n → ℂ) (Fin (n + 2) → ℂ)) : Prop where
  vel : Rel mask σ r s x.s x'.s
  van0 : VanVel mask x.s.U0
  phi0 : RelT c.G bc mask σ r x.phi0 x'.phi0
  phi1 : RelT c.G bc mask σ r x.phi1 x'.phi1
  cont : r = 1 ∨ (∀ k, SpectralDNS.Spec.Channel.Continuity c.M.BDD c.M.CDB (c.G.K1 k) (c.G.K2 k) (x.s.U.u k) (x.s.U.v k) (x.s.U.w k)) ∧
    ∀ k, SpectralDNS.Spec.Channel.Continuity c.M.BDD c.M.CDB (c.G.K1 k) (c.G.K2 k) (x.s.U0.u k) (x.s.U0.v k) (x.s.U0.w k)

omit [DecidableEq κ] in
theorem meanVel_moved (U U0 : Vel κ (Fin n → ℂ) (Fin (n + 2) → ℂ)) : meanVel (moveVel σ r s U) (moveVel σ r s U0) = moveVel σ r s (meanVel U U0) := by
  have e : ∀ {a : ℕ} (x y : κ → Fin a → ℂ), (fun k => (0.5 : ℂ) • (x k + y k)) = (0.5 : ℝ) • (x + y) := fun x y => by
    funext k j
    simp only [Pi.smul_apply, Pi.add_apply, Complex.real_smul, smul_eq_mul]
    norm_num
  simp only [meanVel, moveVel, e, map_add, map_smul, ← smul_add, smul_comm (0.5 : ℝ)]

theorem phiAb_moved {t t' u u' : Temp κ (Fin (n + 2) → ℂ)} (R : RelT G bc mask σ r t t') (Q : RelT G bc mask σ r u u') : RelT G bc mask σ r (phiAb t u) (phiAb t' u') where
  d := by
    have e : ∀ x y : κ → Fin (n + 2) → ℂ, (fun k => (1.5 : ℂ) • x k - (0.5 : ℂ) • y k) = (1.5 : ℝ) • x - (0.5 : ℝ) • y := fun x y => by
      funext k j
      simp only [Pi.smul_apply, Pi.sub_apply, Complex.real_smul, smul_eq_mul]
      norm_num
    simp only [phiAb, e, R.d, Q.d, map_sub, map_smul, smul_sub, smul_comm (sgR r)]
  hbc := by
    constructor <;> funext k <;> by_cases hk : k = G.zero <;> simp only [phiAb, R.hbc.1, R.hbc.2, Q.hbc.1, Q.hbc.2, hk, if_true, if_false] <;> ring
  hbc' := by
    constructor <;> funext k <;> by_cases hk : k = G.zero <;> simp only [phiAb, R.hbc'.1, R.hbc'.2, Q.hbc'.1, Q.hbc'.2, hk, if_true, if_false] <;> ring
  van := fun k hk => by simp only [phiAb, R.van k hk, Q.van k hk, smul_zero, sub_zero]

theorem tickRB_moved (C : Moves q kind T mask σ s c) (F : FixesMean σ c.G) (K : ConstMul T c.G mask σ) {la : LA κ (Fin n → ℂ) (Fin (n + 2) → ℂ)}
    {solveT : κ → (Fin (n + 2) → ℂ) → Fin (n + 2) → ℂ} (hla : la.Solves c.nu c.dt c.G c.M) (hsT : SolvesT (chebRB bc q qT n c kappa (prodBwall q n T) (prodDwall q n T)) 1 solveT)
    {x x' : RBSt κ (Fin n → ℂ) (Fin (n + 2) → ℂ)} (R : RelRB c bc mask σ r s x x') :
    RelRB c bc mask σ r s (tickRB (chebRB bc q qT n c kappa (prodBwall q n T) (prodDwall q n T)) la solveT x)
      (tickRB (chebRB bc q qT n (moveCtx σ r s c) kappa (prodBwall q n T) (prodDwall q n T)) la solveT x') := by
  have S := C.plane
  have A := phiAb_moved R.phi0 R.phi1
  have hb := buoyancy_moved (kappa := kappa) (qT := qT) (prodB := prodBwall q n T) (prodD := prodDwall q n T) S rfl C.mats A c.dt
  have hbv := buoyancy_van (kappa := kappa) (qT := qT) (prodB := prodBwall q n T) (prodD := prodDwall q n T) S rfl C.mats A.hbc A.van c.dt
  have hv := tickF_moved C hla R.vel hb hbv
  have hmv : VanVel mask (meanVel x.s.U x.s.U0) := by
    obtain ⟨a1, a2, a3⟩ := R.vel.vanU
    obtain ⟨b1, b2, b3⟩ := R.van0
    exact ⟨fun k hk => by simp [meanVel, a1 k hk, b1 k hk], fun k hk => by simp [meanVel, a2 k hk, b2 k hk], fun k hk => by simp [meanVel, a3 k hk, b3 k hk]⟩
  have hcont : r = 1 ∨ ∀ k, SpectralDNS.Spec.Channel.Continuity (chebMats q n).BDD (chebMats q n).CDB (c.G.K1 k) (c.G.K2 k)
      ((meanVel x.s.U x.s.U0).u k) ((meanVel x.s.U x.s.U0).v k) ((meanVel x.s.U x.s.U0).w k) := R.cont.imp id fun h k => by
    have h1 := h.1 k
    have h2 := h.2 k
    rw [C.mats] at h1 h2
    simp only [SpectralDNS.Spec.Channel.Continuity, meanVel, map_add, map_smul] at h1 h2 ⊢
    linear_combination (norm := module) (0.5 : ℂ) • h1 + (0.5 : ℂ) • h2
  have hN : maskT c.mask (divRB (chebRB bc q qT n c kappa (prodBwall q n T) (prodDwall q n T)) (meanVel x'.s.U x'.s.U0) (phiAb x'.phi0 x'.phi1)) =
      sgR r • lift σ r (maskT c.mask (divRB (chebRB bc q qT n c kappa (prodBwall q n T) (prodDwall q n T)) (meanVel x.s.U x.s.U0) (phiAb x.phi0 x.phi1))) := by
    rw [C.mask, maskT_keep, maskT_keep, R.vel.U, R.vel.U0, meanVel_moved]
    exact divRB_moved F S K rfl C.mats A hmv hcont
  have hNv : VanA mask (maskT c.mask (divRB (chebRB bc q qT n c kappa (prodBwall q n T) (prodDwall q n T)) (meanVel x.s.U x.s.U0) (phiAb x.phi0 x.phi1))) := by
    rw [C.mask, maskT_keep]; exact keepA_van _ _
  have hT := tempRHS_moved S qT (-2 / kappa) (2 / kappa / c.dt) hN R.phi0.d
  have hTv := tempRHS_van (G := c.G) qT (-2 / kappa) (2 / kappa / c.dt) hNv R.phi0.van
  have hsys : ∀ k b, -(chebMats .GC n).ADD (solveT k b) + ((c.G.Ksq k + 2 / kappa / 1 / c.dt : ℝ) : ℂ) • (chebMats .GC n).BDD (solveT k b) = b := hsT
  have hS := solveT_moved (r := r) S .GC _ solveT hsys (sgR r) fun k =>
    ((-2 / kappa : ℝ) : ℂ) • maskT c.mask (divRB (chebRB bc q qT n c kappa (prodBwall q n T) (prodDwall q n T)) (meanVel x.s.U x.s.U0) (phiAb x.phi0 x.phi1)) k
      + helmholtzCoeff (chebMats qT n) 1 (2 / kappa / c.dt - c.G.Ksq k) (x.phi0.d k)
  rw [← hT] at hS
  have hsol : ∀ x, ∀ k, SpectralDNS.Spec.Channel.Continuity c.M.BDD c.M.CDB (c.G.K1 k) (c.G.K2 k)
      ((tickRB (chebRB bc q qT n c kappa (prodBwall q n T) (prodDwall q n T)) la solveT x).s.U.u k)
      ((tickRB (chebRB bc q qT n c kappa (prodBwall q n T) (prodDwall q n T)) la solveT x).s.U.v k)
      ((tickRB (chebRB bc q qT n c kappa (prodBwall q n T) (prodDwall q n T)) la solveT x).s.U.w k) := fun x =>
    (C33_kmm c la hla.tdmaD S.zero _ _ _).1
  exact ⟨hv, hv.vanU, ⟨hS, ⟨rfl, rfl⟩, ⟨rfl, rfl⟩, solveT_van .GC _ solveT hsys hTv⟩, R.phi0, Or.inr ⟨hsol x, hsol x⟩⟩

theorem runRB_moved (C : Moves q kind T mask σ s c) (F : FixesMean σ c.G) (K : ConstMul T c.G mask σ) {la : LA κ (Fin n → ℂ) (Fin (n + 2) → ℂ)}
    {solveT : κ → (Fin (n + 2) → ℂ) → Fin (n + 2) → ℂ} (hla : la.Solves c.nu c.dt c.G c.M) (hsT : SolvesT (chebRB bc q qT n c kappa (prodBwall q n T) (prodDwall q n T)) 1 solveT)
    {x x' : RBSt κ (Fin n → ℂ) (Fin (n + 2) → ℂ)} (R : RelRB c bc mask σ r s x x') (m : ℕ) :
    RelRB c bc mask σ r s ((tickRB (chebRB bc q qT n c kappa (prodBwall q n T) (prodDwall q n T)) la solveT)^[m] x)
      ((tickRB (chebRB bc q qT n (moveCtx σ r s c) kappa (prodBwall q n T) (prodDwall q n T)) la solveT)^[m] x') := by
  induction m with
  | zero => exact R
  | succ m ih =>
    rw [Function.iterate_succ_apply', Function.iterate_succ_apply']
    exact tickRB_moved C F K hla hsT ih

end

end SpectralDNS.Channel

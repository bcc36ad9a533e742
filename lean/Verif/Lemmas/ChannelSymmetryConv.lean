import Verif.Lemmas.ChannelSymmetry
import Verif.Props.Symmetry

/-!
# The convection of the channel solvers under the motions of the channel
-/

namespace SpectralDNS.Channel

open Polynomial Periodic

variable {κ X : Type*}

/-- The motion `σ` of the planes with signs `s` along the two periodic directions is a symmetry of the plane transforms and of the wavenumbers. -/
structure PlaneSymm (T : Space κ X) (G : Grid κ) (mask : κ → Bool) (σ : (κ → ℂ) →ₗ[ℝ] (κ → ℂ)) (s : Fin 2 → ℤˣ) : Prop where
  symm : Symm T ![G.K1, G.K2] (some mask) σ 1 s
  x1 : G.X1 = G.K1
  x2 : G.X2 = G.K2
  zero : ∀ k, G.Ksq k = 0 ↔ k = G.zero
  keepZero : mask G.zero = true
  add : Additive T

section
variable {V : Type*} [AddCommGroup V] [Module ℂ V]

/-- The entries that the mask keeps. -/
def keepA (mask : κ → Bool) (a : κ → V) : κ → V := fun k => if mask k then a k else 0

/-- The masked entries are zero. -/
def VanA (mask : κ → Bool) (a : κ → V) : Prop := ∀ k, mask k = false → a k = 0

theorem keepA_of_van {mask : κ → Bool} {a : κ → V} (h : VanA mask a) : keepA mask a = a := by
  funext k
  by_cases hk : mask k = true
  · simp [keepA, hk]
  · simp [keepA, hk, h k (by simpa using hk)]

theorem keepA_van (mask : κ → Bool) (a : κ → V) : VanA mask (keepA mask a) := fun k hk => by simp [keepA, hk]

theorem keepA_add (mask : κ → Bool) (a b : κ → V) : keepA mask (a + b) = keepA mask a + keepA mask b := by
  funext k; simp only [keepA, Pi.add_apply]; split <;> simp

theorem keepA_sub (mask : κ → Bool) (a b : κ → V) : keepA mask (a - b) = keepA mask a - keepA mask b := by
  funext k; simp only [keepA, Pi.sub_apply]; split <;> simp

theorem keepA_smul (mask : κ → Bool) (t : ℝ) (a : κ → V) : keepA mask (t • a) = t • keepA mask a := by
  funext k; simp only [keepA, Pi.smul_apply]; split <;> simp

theorem keepA_ik (mask : κ → Bool) (K : κ → ℝ) (a : κ → V) : keepA mask (ik K a) = ik K (keepA mask a) := by
  funext k; simp only [keepA, ik]; split <;> simp

theorem keepA_map {W : Type*} [AddCommGroup W] [Module ℂ W] (mask : κ → Bool) (P : V →ₗ[ℂ] W) (a : κ → V) :
    keepA mask (fun k => P (a k)) = fun k => P (keepA mask a k) := by
  funext k; simp only [keepA]; split <;> simp

theorem VanA.ik {mask : κ → Bool} {a : κ → V} (h : VanA mask a) (K : κ → ℝ) : VanA mask (ik K a) := fun k hk => by simp [Channel.ik, h k hk]

theorem VanA.map {W : Type*} [AddCommGroup W] [Module ℂ W] {mask : κ → Bool} {a : κ → V} (h : VanA mask a) (P : V →ₗ[ℂ] W) :
    VanA mask fun k => P (a k) := fun k hk => by simp [h k hk]

end

theorem sgR_cases (z : ℤˣ) : sgR z = 1 ∨ sgR z = -1 := by rcases Int.units_eq_one_or z with rfl | rfl <;> simp [sgR]

section

variable {T : Space κ X} {G : Grid κ} {mask : κ → Bool} {σ : (κ → ℂ) →ₗ[ℝ] (κ → ℂ)} {s : Fin 2 → ℤˣ} (S : PlaneSymm T G mask σ s) {r : ℤˣ}

include S in
theorem PlaneSymm.σ_ik1 (a : κ → ℂ) : (fun k => Complex.I * G.K1 k * σ a k) = sgR (s 0) • σ fun k => Complex.I * G.K1 k * a k := S.symm.D_σ 0 a

include S in
theorem PlaneSymm.σ_ik2 (a : κ → ℂ) : (fun k => Complex.I * G.K2 k * σ a k) = sgR (s 1) • σ fun k => Complex.I * G.K2 k * a k := S.symm.D_σ 1 a

include S in
theorem PlaneSymm.ik1 {m : ℕ} (y : ℤˣ) (a : κ → Fin m → ℂ) : ik G.K1 (sgR y • lift σ r a) = sgR (y * s 0) • lift σ r (ik G.K1 a) := by
  funext k j
  have h := congrFun (S.σ_ik1 fun k => a k j) k
  simp only [Pi.smul_apply, Complex.real_smul] at h
  simp only [ik, Pi.smul_apply, lift_apply, Complex.real_smul, smul_eq_mul, sgR_mul]
  push_cast
  linear_combination (sgR y : ℂ) * (sgR r : ℂ) ^ (j : ℕ) * h

include S in
theorem PlaneSymm.ik2 {m : ℕ} (y : ℤˣ) (a : κ → Fin m → ℂ) : ik G.K2 (sgR y • lift σ r a) = sgR (y * s 1) • lift σ r (ik G.K2 a) := by
  funext k j
  have h := congrFun (S.σ_ik2 fun k => a k j) k
  simp only [Pi.smul_apply, Complex.real_smul] at h
  simp only [ik, Pi.smul_apply, lift_apply, Complex.real_smul, smul_eq_mul, sgR_mul]
  push_cast
  linear_combination (sgR y : ℂ) * (sgR r : ℂ) ^ (j : ℕ) * h

theorem Par.one {a b : ℕ} {P : (Fin b → ℂ) →ₗ[ℂ] (Fin a → ℂ)} (h : Par σ r 1 P) (y : ℤˣ) (v : κ → Fin b → ℂ) :
    (fun k => P ((sgR y • lift σ r v) k)) = sgR (y * r) • lift σ r fun k => P (v k) := by
  funext k
  have h1 := congrFun (h v) k
  simp only [Pi.smul_apply] at h1 ⊢
  rw [LinearMap.map_smul_of_tower, h1, smul_smul, pow_one, sgR_mul]

theorem Par.zero {a b : ℕ} {P : (Fin b → ℂ) →ₗ[ℂ] (Fin a → ℂ)} (h : Par σ r 0 P) (y : ℤˣ) (v : κ → Fin b → ℂ) :
    (fun k => P ((sgR y • lift σ r v) k)) = sgR y • lift σ r fun k => P (v k) := by
  funext k
  have h1 := congrFun (h v) k
  simp only [Pi.smul_apply] at h1 ⊢
  rw [LinearMap.map_smul_of_tower, h1, smul_smul, pow_zero, mul_one]

include S in
theorem PlaneSymm.keep {m : ℕ} (a : κ → Fin m → ℂ) : keepA mask (lift σ r a) = lift σ r (keepA mask a) := by
  funext k j
  have h := congrFun (S.symm.keep fun k => a k j) k
  have e1 : (fun k => keepA mask a k j) = keepL (some mask) fun k => a k j := by
    funext k
    by_cases hk : mask k = true <;> simp [keepA, keepL, keeps, hk]
  rw [lift_apply, e1, h]
  by_cases hk : mask k = true <;> simp [keepA, keepL, keeps, hk, lift_apply]

include S in
theorem PlaneSymm.van {m : ℕ} {a : κ → Fin m → ℂ} (h : VanA mask a) (y : ℤˣ) : VanA mask (sgR y • lift σ r a) := by
  rw [← keepA_of_van h, ← S.keep, ← keepA_smul]
  exact keepA_van _ _

/-! ## Products -/

variable (q : Quad) (n : ℕ)

/-- The plane arrays at the quadrature points between the walls. -/
noncomputable def pl (f : ℕ → ℝ[X]) {m : ℕ} (a : κ → Fin m → ℂ) (l : Fin (n + 4)) : κ → ℂ := fun k => (expandC f (a k)).eval (quadPoint q (n + 4) l : ℂ)

/-- The coefficients of a product formed at the grid points. -/
noncomputable def prodA (T : Space κ X) (f g : ℕ → ℝ[X]) {m m' : ℕ} (a : κ → Fin m → ℂ) (c : κ → Fin m' → ℂ) : κ → Fin (n + 2) → ℂ :=
  fwdD (chebWall q n) T fun l p => T.backward (pl q n f a l) p * T.backward (pl q n g c l) p

theorem pl_lift {f : ℕ → ℝ[X]} (hf : HasPar r 0 f) {m : ℕ} (y : ℤˣ) (a : κ → Fin m → ℂ) (l : Fin (n + 4)) :
    pl q n f (sgR y • lift σ r a) l = sgR y • σ (pl q n f a (oppose r l)) := by
  have h := eval_lift (σ := σ) q n m 0 hf a l
  rw [pow_zero, one_smul] at h
  unfold pl
  rw [← h]
  funext k
  simp only [Pi.smul_apply, LinearMap.map_smul_of_tower]
  rw [eval_smul]

theorem pl_van {f : ℕ → ℝ[X]} {m : ℕ} {a : κ → Fin m → ℂ} (h : VanA mask a) (l : Fin (n + 4)) : Vanishes (some mask) (pl q n f a l) := fun k hk => by
  simp [pl, h k hk]

theorem keepA_fwdD (F : Fin (n + 4) → X → ℝ) (k : κ) :
    keepA mask (fwdD (chebWall q n) T F) k = forwardWall q (n + 4) phi fun l => keepL (some mask) (T.forward (F l)) k := by
  by_cases hk : mask k = true
  · simp only [keepA, hk, if_true, keepL, keeps, LinearMap.coe_mk, AddHom.coe_mk]
    rfl
  · simp only [keepA, hk, keepL, keeps, LinearMap.coe_mk, AddHom.coe_mk]
    exact (map_zero _).symm

include S in
theorem PlaneSymm.prod {f g : ℕ → ℝ[X]} (hf : HasPar r 0 f) (hg : HasPar r 0 g) {m m' : ℕ} {a : κ → Fin m → ℂ} {c : κ → Fin m' → ℂ} (ha : VanA mask a)
    (hc : VanA mask c) (y z : ℤˣ) :
    keepA mask (prodA q n T f g (sgR y • lift σ r a) (sgR z • lift σ r c)) = sgR (y * z) • lift σ r (keepA mask (prodA q n T f g a c)) := by
  have h1 : ∀ l, keepL (some mask) (T.forward fun p => T.backward (pl q n f (sgR y • lift σ r a) l) p * T.backward (pl q n g (sgR z • lift σ r c) l) p) =
      sgR (y * z) • σ (pr T (some mask) (pl q n f a (oppose r l)) (pl q n g c (oppose r l))) := fun l => by
    rw [pl_lift q n hf, pl_lift q n hg]
    show pr T (some mask) _ _ = _
    rw [pr_sg S.add, S.symm.product _ _ (pl_van q n ha _) (pl_van q n hc _), sgR_mul]
  have h2 := forwardWall_lift (σ := σ) q n (n + 2) 2 (hasPar_phi r) le_rfl degree_phi fun l => pr T (some mask) (pl q n f a l) (pl q n g c l)
  funext k
  rw [prodA, keepA_fwdD]
  simp only [h1]
  have h3 : (forwardWall q (n + 4) phi fun l => (sgR (y * z) • σ (pr T (some mask) (pl q n f a (oppose r l)) (pl q n g c (oppose r l)))) k) =
      sgR (y * z) • (forwardWall q (n + 4) phi (a := n + 2) fun l => σ (pr T (some mask) (pl q n f a (oppose r l)) (pl q n g c (oppose r l))) k) := by
    rw [← LinearMap.map_smul_of_tower]
    rfl
  rw [h3, congrFun h2 k]
  have h4 : keepA mask (prodA q n T f g a c) = fun k => forwardWall q (n + 4) phi fun l => pr T (some mask) (pl q n f a l) (pl q n g c l) k := by
    funext k
    rw [prodA, keepA_fwdD]
    rfl
  rw [h4]
  rfl

theorem fwdD_add' (S : PlaneSymm T G mask σ s) (f g : Fin (n + 4) → X → ℝ) :
    fwdD (chebWall q n) T (f + g) = fwdD (chebWall q n) T f + fwdD (chebWall q n) T g := by
  funext k
  show (chebWall q n).fwd _ = (chebWall q n).fwd _ + (chebWall q n).fwd _
  rw [← map_add]
  congr 1
  funext l
  exact congrFun (S.add.forward (f l) (g l)) k

theorem fwdD_sub' (S : PlaneSymm T G mask σ s) (f g : Fin (n + 4) → X → ℝ) :
    fwdD (chebWall q n) T (f - g) = fwdD (chebWall q n) T f - fwdD (chebWall q n) T g := by
  funext k
  show (chebWall q n).fwd _ = (chebWall q n).fwd _ - (chebWall q n).fwd _
  rw [← map_sub]
  congr 1
  funext l
  exact congrFun (S.add.forward_sub (f l) (g l)) k

/-- The motion of a velocity. -/
noncomputable def moveVel (σ : (κ → ℂ) →ₗ[ℝ] (κ → ℂ)) (r : ℤˣ) (s : Fin 2 → ℤˣ) {a b : ℕ} (U : Vel κ (Fin a → ℂ) (Fin b → ℂ)) : Vel κ (Fin a → ℂ) (Fin b → ℂ) :=
  ⟨sgR r • lift σ r U.u, sgR (s 0) • lift σ r U.v, sgR (s 1) • lift σ r U.w⟩

/-- The motion of a vector. -/
noncomputable def moveVec (σ : (κ → ℂ) →ₗ[ℝ] (κ → ℂ)) (r : ℤˣ) (s : Fin 2 → ℤˣ) {b : ℕ} (H : Vec κ (Fin b → ℂ)) : Vec κ (Fin b → ℂ) :=
  ⟨sgR r • lift σ r H.c0, sgR (s 0) • lift σ r H.c1, sgR (s 1) • lift σ r H.c2⟩

/-- The motion of the wall-normal vorticity. -/
noncomputable def moveG (σ : (κ → ℂ) →ₗ[ℝ] (κ → ℂ)) (r : ℤˣ) (s : Fin 2 → ℤˣ) {b : ℕ} (g : κ → Fin b → ℂ) : κ → Fin b → ℂ := sgR (s 0 * s 1) • lift σ r g

/-- The mask on a vector. -/
def keepVec (mask : κ → Bool) {b : ℕ} (H : Vec κ (Fin b → ℂ)) : Vec κ (Fin b → ℂ) := ⟨keepA mask H.c0, keepA mask H.c1, keepA mask H.c2⟩

/-- The masked entries of a velocity are zero. -/
def VanVel (mask : κ → Bool) {a b : ℕ} (U : Vel κ (Fin a → ℂ) (Fin b → ℂ)) : Prop := VanA mask U.u ∧ VanA mask U.v ∧ VanA mask U.w

/-- Wall-normal derivatives: `project` of the derivative, `Mult_CTD`. -/
noncomputable def pDB : (Fin n → ℂ) →ₗ[ℂ] (Fin (n + 2) → ℂ) := (chebWall q n).projD ∘ₗ (Polynomial.derivative : ℂ[X] →ₗ[ℂ] ℂ[X]) ∘ₗ (chebWall q n).fB
@[inherit_doc pDB] noncomputable def pCD : (Fin (n + 2) → ℂ) →ₗ[ℂ] (Fin (n + 4) → ℂ) := (chebWall q n).projC ∘ₗ (Polynomial.derivative : ℂ[X] →ₗ[ℂ] ℂ[X]) ∘ₗ (chebWall q n).fD
@[inherit_doc pDB] noncomputable def pDD : (Fin (n + 2) → ℂ) →ₗ[ℂ] (Fin (n + 2) → ℂ) := (chebWall q n).projD ∘ₗ (Polynomial.derivative : ℂ[X] →ₗ[ℂ] ℂ[X]) ∘ₗ (chebWall q n).fD
@[inherit_doc pDB] noncomputable def pBB : (Fin n → ℂ) →ₗ[ℂ] (Fin n → ℂ) := (chebWall q n).projB ∘ₗ (Polynomial.derivative : ℂ[X] →ₗ[ℂ] ℂ[X]) ∘ₗ (chebWall q n).fB

theorem par_pDB : Par σ r 1 (pDB q n) := par_project q n _ _ 2 (hasPar_phi r) (hasPar_psi r) le_rfl degree_phi _ fun _ => rfl
theorem par_pCD : Par σ r 1 (pCD q n) := par_project q n _ _ 0 (hasPar_T r) (hasPar_phi r) le_rfl degree_cheb _ fun _ => rfl
theorem par_pDD : Par σ r 1 (pDD q n) := par_project q n _ _ 2 (hasPar_phi r) (hasPar_phi r) le_rfl degree_phi _ fun _ => rfl
theorem par_pBB : Par σ r 1 (pBB q n) := par_project q n _ _ 4 (hasPar_psi r) (hasPar_psi r) le_rfl degree_psi _ fun _ => rfl

theorem ctd_eq : (chebWall q n).ctd = pCD q n := LinearMap.ext fun d => by
  have h := (C73_cheb_exact q n).projC ((chebWall q n).ctd d)
  rw [(C73_cheb_exact q n).ctd] at h
  exact h.symm

theorem par_toB : Par σ r 0 (chebWall q n).toB := fun v => by
  funext k i
  simp only [pow_zero, one_smul]
  rfl

theorem par_toD : Par σ r 0 (chebWall q n).toD := fun v => by
  funext k i
  simp only [pow_zero, one_smul, lift_apply]
  show (if h : (i : ℕ) < n then (LinearMap.proj ⟨i, h⟩ : (Fin n → ℂ) →ₗ[ℂ] ℂ) else 0) (lift σ r v k) =
    _ * σ (fun k => (if h : (i : ℕ) < n then (LinearMap.proj ⟨i, h⟩ : (Fin n → ℂ) →ₗ[ℂ] ℂ) else 0) (v k)) k
  split_ifs with h
  · rfl
  · have : (fun k : κ => (0 : (Fin n → ℂ) →ₗ[ℂ] ℂ) (v k)) = 0 := rfl
    rw [this, map_zero]
    simp

/-! ## The forms of the convection -/

/-- Products with the components of the velocity. -/
theorem standard_prod (S : PlaneSymm T G mask σ s) (U : Vel κ (Fin n → ℂ) (Fin (n + 2) → ℂ)) : standardConvection (chebWall q n) T G U =
    ⟨prodA q n T psi phi U.u (fun k => pDB q n (U.u k)) + prodA q n T phi psi U.v (ik G.K1 U.u) + prodA q n T phi psi U.w (ik G.K2 U.u),
     prodA q n T psi (fun j => Chebyshev.T ℝ (j : ℤ)) U.u (fun k => pCD q n (U.v k)) + prodA q n T phi phi U.v (ik G.K1 U.v) + prodA q n T phi phi U.w (ik G.K2 U.v),
     prodA q n T psi (fun j => Chebyshev.T ℝ (j : ℤ)) U.u (fun k => pCD q n (U.w k)) + prodA q n T phi phi U.v (ik G.K1 U.w) + prodA q n T phi phi U.w (ik G.K2 U.w)⟩ := by
  unfold standardConvection
  simp only [fwdD_add' q n S]
  rfl

theorem divergence_prod (S : PlaneSymm T G mask σ s) (U : Vel κ (Fin n → ℂ) (Fin (n + 2) → ℂ)) (R : Vec κ (Fin (n + 2) → ℂ)) :
    divergenceConvection (chebWall q n) T G U R =
    ⟨R.c0 + (fun k => (chebWall q n).toD (pBB q n ((chebWall q n).toB (prodA q n T psi psi U.u U.u k)))) + ik G.K1 (prodA q n T psi phi U.u U.v) + ik G.K2 (prodA q n T psi phi U.u U.w),
     R.c1 + (fun k => pDD q n (prodA q n T psi phi U.u U.v k)) + ik G.K1 (prodA q n T phi phi U.v U.v) + ik G.K2 (prodA q n T phi phi U.v U.w),
     R.c2 + (fun k => pDD q n (prodA q n T psi phi U.u U.w k)) + ik G.K1 (prodA q n T phi phi U.v U.w) + ik G.K2 (prodA q n T phi phi U.w U.w)⟩ := rfl

theorem vortex_prod (S : PlaneSymm T G mask σ s) (U : Vel κ (Fin n → ℂ) (Fin (n + 2) → ℂ)) (g : κ → Fin (n + 2) → ℂ) :
    crossHat (chebWall q n) T (velocity (chebWall q n) T U) (computeCurl (chebWall q n) T G U g) =
    ⟨prodA q n T phi (fun j => Chebyshev.T ℝ (j : ℤ)) U.v (fun k => pCD q n (U.v k)) - prodA q n T phi psi U.v (ik G.K1 U.u)
        - (prodA q n T phi psi U.w (ik G.K2 U.u) - prodA q n T phi (fun j => Chebyshev.T ℝ (j : ℤ)) U.w (fun k => pCD q n (U.w k))),
     prodA q n T phi phi U.w g - (prodA q n T psi (fun j => Chebyshev.T ℝ (j : ℤ)) U.u (fun k => pCD q n (U.v k)) - prodA q n T psi psi U.u (ik G.K1 U.u)),
     (prodA q n T psi psi U.u (ik G.K2 U.u) - prodA q n T psi (fun j => Chebyshev.T ℝ (j : ℤ)) U.u (fun k => pCD q n (U.w k))) - prodA q n T phi phi U.v g⟩ := by
  have hn : bwdB (chebWall q n) T (fun k => -(Complex.I * G.K1 k) • U.u k) = -bwdB (chebWall q n) T (ik G.K1 U.u) := by
    funext l
    have : (fun k => ((chebWall q n).fB (-(Complex.I * (G.K1 k : ℂ)) • U.u k)).eval ((chebWall q n).x l : ℂ)) =
        fun k => -((chebWall q n).fB (ik G.K1 U.u k)).eval ((chebWall q n).x l : ℂ) := by
      funext k
      simp only [ik, map_smul, eval_smul, smul_eq_mul]; ring
    show T.backward _ = -T.backward _
    rw [this, S.add.backward_neg]
    rfl
  have h0 : cross1_3d 0 (velocity (chebWall q n) T U) (computeCurl (chebWall q n) T G U g) 0 = (bwdD (chebWall q n) T U.v * bwdC (chebWall q n) T (fun k => pCD q n (U.v k)) -
      bwdD (chebWall q n) T U.v * bwdB (chebWall q n) T (ik G.K1 U.u)) - (bwdD (chebWall q n) T U.w * bwdB (chebWall q n) T (ik G.K2 U.u) -
      bwdD (chebWall q n) T U.w * bwdC (chebWall q n) T (fun k => pCD q n (U.w k))) := by
    simp only [cross1_3d, velocity, computeCurl, hn, ctd_eq]
    simp [Function.update]
    ring
  have h1 : cross1_3d 0 (velocity (chebWall q n) T U) (computeCurl (chebWall q n) T G U g) 1 = bwdD (chebWall q n) T U.w * bwdD (chebWall q n) T g -
      (bwdB (chebWall q n) T U.u * bwdC (chebWall q n) T (fun k => pCD q n (U.v k)) - bwdB (chebWall q n) T U.u * bwdB (chebWall q n) T (ik G.K1 U.u)) := by
    simp only [cross1_3d, velocity, computeCurl, hn, ctd_eq]
    simp [Function.update]
    ring
  have h2 : cross1_3d 0 (velocity (chebWall q n) T U) (computeCurl (chebWall q n) T G U g) 2 = (bwdB (chebWall q n) T U.u * bwdB (chebWall q n) T (ik G.K2 U.u) -
      bwdB (chebWall q n) T U.u * bwdC (chebWall q n) T (fun k => pCD q n (U.w k))) - bwdD (chebWall q n) T U.v * bwdD (chebWall q n) T g := by
    simp only [cross1_3d, velocity, computeCurl, hn, ctd_eq]
    simp [Function.update]
    ring
  unfold crossHat
  simp only [h0, h1, h2, fwdD_sub' q n S]
  rfl

theorem PlaneSymm.standard (S : PlaneSymm T G mask σ s) (U : Vel κ (Fin n → ℂ) (Fin (n + 2) → ℂ)) (hU : VanVel mask U) :
    keepVec mask (standardConvection (chebWall q n) T G (moveVel σ r s U)) = moveVec σ r s (keepVec mask (standardConvection (chebWall q n) T G U)) := by
  obtain ⟨hu, hv, hw⟩ := hU
  simp only [standard_prod q n S, keepVec, moveVec, moveVel, keepA_add, S.ik1, S.ik2, (par_pDB q n).one, (par_pCD q n).one,
    S.prod q n (hasPar_psi r) (hasPar_phi r) hu (hu.map _), S.prod q n (hasPar_phi r) (hasPar_psi r) hv (hu.ik _),
    S.prod q n (hasPar_phi r) (hasPar_psi r) hw (hu.ik _), S.prod q n (hasPar_psi r) (hasPar_T r) hu (hv.map _),
    S.prod q n (hasPar_psi r) (hasPar_T r) hu (hw.map _), S.prod q n (hasPar_phi r) (hasPar_phi r) hv (hv.ik _),
    S.prod q n (hasPar_phi r) (hasPar_phi r) hw (hv.ik _), S.prod q n (hasPar_phi r) (hasPar_phi r) hv (hw.ik _),
    S.prod q n (hasPar_phi r) (hasPar_phi r) hw (hw.ik _), map_add]
  simp only [sgR_mul]
  ext1 <;> rcases sgR_cases r with e | e <;> rcases sgR_cases (s 0) with e0 | e0 <;> rcases sgR_cases (s 1) with e1 | e1 <;> rw [e, e0, e1] <;> module

theorem PlaneSymm.divergence (S : PlaneSymm T G mask σ s) (U : Vel κ (Fin n → ℂ) (Fin (n + 2) → ℂ)) (hU : VanVel mask U) (R R' : Vec κ (Fin (n + 2) → ℂ))
    (hR : keepVec mask R' = moveVec σ r s (keepVec mask R)) :
    keepVec mask (divergenceConvection (chebWall q n) T G (moveVel σ r s U) R') = moveVec σ r s (keepVec mask (divergenceConvection (chebWall q n) T G U R)) := by
  obtain ⟨hu, hv, hw⟩ := hU
  have hR0 := congrArg Vec.c0 hR
  have hR1 := congrArg Vec.c1 hR
  have hR2 := congrArg Vec.c2 hR
  simp only [keepVec, moveVec] at hR0 hR1 hR2
  have hBB : ∀ (y : ℤˣ) (v : κ → Fin (n + 2) → ℂ), (fun k => (chebWall q n).toD (pBB q n ((chebWall q n).toB ((sgR y • lift σ r v) k)))) =
      sgR (y * r) • lift σ r fun k => (chebWall q n).toD (pBB q n ((chebWall q n).toB (v k))) :=
    fun y v => (((par_toD q n).comp (par_pBB q n)).comp (par_toB q n) : Par σ r 1 _).one y v
  have hk : ∀ v : κ → Fin (n + 2) → ℂ, keepA mask (fun k => (chebWall q n).toD (pBB q n ((chebWall q n).toB (v k)))) =
      fun k => (chebWall q n).toD (pBB q n ((chebWall q n).toB (keepA mask v k))) := fun v =>
    keepA_map mask ((chebWall q n).toD ∘ₗ pBB q n ∘ₗ (chebWall q n).toB) v
  simp only [divergence_prod q n S, keepVec, moveVec, moveVel, keepA_add, keepA_ik, hk, keepA_map, hR0, hR1, hR2,
    S.prod q n (hasPar_psi r) (hasPar_psi r) hu hu, S.prod q n (hasPar_psi r) (hasPar_phi r) hu hv, S.prod q n (hasPar_psi r) (hasPar_phi r) hu hw,
    S.prod q n (hasPar_phi r) (hasPar_phi r) hv hv, S.prod q n (hasPar_phi r) (hasPar_phi r) hv hw, S.prod q n (hasPar_phi r) (hasPar_phi r) hw hw,
    hBB, (par_pDD q n).one, S.ik1, S.ik2, map_add]
  simp only [sgR_mul]
  ext1 <;> rcases sgR_cases r with e | e <;> rcases sgR_cases (s 0) with e0 | e0 <;> rcases sgR_cases (s 1) with e1 | e1 <;> rw [e, e0, e1] <;> module

theorem PlaneSymm.vortex (S : PlaneSymm T G mask σ s) (U : Vel κ (Fin n → ℂ) (Fin (n + 2) → ℂ)) (hU : VanVel mask U) (g : κ → Fin (n + 2) → ℂ)
    (hg : VanA mask g) :
    keepVec mask (convection .vortex (chebWall q n) T G (moveVel σ r s U) (moveG σ r s g)) =
      moveVec σ r s (keepVec mask (convection .vortex (chebWall q n) T G U g)) := by
  obtain ⟨hu, hv, hw⟩ := hU
  simp only [convection, vortex_prod q n S, keepVec, moveVec, moveVel, moveG, keepA_sub, S.ik1, S.ik2, (par_pCD q n).one,
    S.prod q n (hasPar_phi r) (hasPar_T r) hv (hv.map _), S.prod q n (hasPar_phi r) (hasPar_psi r) hv (hu.ik _),
    S.prod q n (hasPar_phi r) (hasPar_psi r) hw (hu.ik _), S.prod q n (hasPar_phi r) (hasPar_T r) hw (hw.map _),
    S.prod q n (hasPar_phi r) (hasPar_phi r) hw hg, S.prod q n (hasPar_psi r) (hasPar_T r) hu (hv.map _),
    S.prod q n (hasPar_psi r) (hasPar_psi r) hu (hu.ik _), S.prod q n (hasPar_psi r) (hasPar_T r) hu (hw.map _),
    S.prod q n (hasPar_phi r) (hasPar_phi r) hv hg, map_sub]
  simp only [sgR_mul]
  ext1 <;> rcases sgR_cases r with e | e <;> rcases sgR_cases (s 0) with e0 | e0 <;> rcases sgR_cases (s 1) with e1 | e1 <;> rw [e, e0, e1] <;> module

theorem scaleVec_keep (t : ℝ) {b : ℕ} (H : Vec κ (Fin b → ℂ)) : keepVec mask (scaleVec (t : ℂ) H) = scaleVec (t : ℂ) (keepVec mask H) := by
  simp only [keepVec, scaleVec]
  congr 1 <;> exact keepA_smul mask t _

theorem scaleVec_move (t : ℝ) {b : ℕ} (H : Vec κ (Fin b → ℂ)) : moveVec σ r s (scaleVec (t : ℂ) H) = scaleVec (t : ℂ) (moveVec σ r s H) := by
  have h : ∀ (y : ℝ) (a : κ → Fin b → ℂ), y • lift σ r (t • a) = t • y • lift σ r a := fun y a => by rw [map_smul, smul_comm]
  simp only [moveVec, scaleVec]
  congr 1 <;> exact h _ _

/-- All forms of the convection commute with the motions (after the mask). -/
theorem PlaneSymm.conv (S : PlaneSymm T G mask σ s) (kind : ConvKind) (U : Vel κ (Fin n → ℂ) (Fin (n + 2) → ℂ)) (hU : VanVel mask U)
    (g : κ → Fin (n + 2) → ℂ) (hg : VanA mask g) :
    keepVec mask (convection kind (chebWall q n) T G (moveVel σ r s U) (moveG σ r s g)) =
      moveVec σ r s (keepVec mask (convection kind (chebWall q n) T G U g)) := by
  have h0 : keepVec mask (⟨0, 0, 0⟩ : Vec κ (Fin (n + 2) → ℂ)) = moveVec σ r s (keepVec mask ⟨0, 0, 0⟩) := by
    have : keepA mask (0 : κ → Fin (n + 2) → ℂ) = 0 := by funext k; simp [keepA]
    simp only [keepVec, moveVec, this, map_zero, smul_zero]
  cases kind with
  | standard =>
    simp only [convection]
    rw [show (-1 : ℂ) = ((-1 : ℝ) : ℂ) by norm_num, scaleVec_keep, scaleVec_keep, scaleVec_move, S.standard q n U hU]
  | divergence =>
    simp only [convection]
    rw [show (-1 : ℂ) = ((-1 : ℝ) : ℂ) by norm_num, scaleVec_keep, scaleVec_keep, scaleVec_move, S.divergence q n U hU _ _ h0]
  | skew =>
    simp only [convection]
    rw [show (-0.5 : ℂ) = ((-0.5 : ℝ) : ℂ) by norm_num, scaleVec_keep, scaleVec_keep, scaleVec_move, S.divergence q n U hU _ _ (S.standard q n U hU)]
  | vortex => exact S.vortex q n U hU g hg

end

end SpectralDNS.Channel

import Verif.Lemmas.ChannelSymmetryStep

/-! # Steps of KMM and KMMRK3 commute with the motions of the channel, for the arrays -/

namespace SpectralDNS.Channel

open Polynomial Periodic

section step

variable {κ X : Type*} [DecidableEq κ] {T : Space κ X} {G : Grid κ} {mask : κ → Bool} {σ : (κ → ℂ) →ₗ[ℝ] (κ → ℂ)} {s : Fin 2 → ℤˣ} {r : ℤˣ} {q : Quad} {n : ℕ}

/-- What `solve_linear` of both solvers makes of the right-hand sides. -/
noncomputable def solved (G : Grid κ) (M : Mats (Fin n → ℂ) (Fin (n + 2) → ℂ)) (la : LA κ (Fin n → ℂ) (Fin (n + 2) → ℂ)) (rhs0 : κ → Fin n → ℂ)
    (rhs1 : κ → Fin (n + 2) → ℂ) (w w' : Fin (n + 2) → ℂ) : Vel κ (Fin n → ℂ) (Fin (n + 2) → ℂ) × (κ → Fin (n + 2) → ℂ) :=
  let u := fun k => la.biharmonicU k (rhs0 k)
  let g := fun k => la.helmholtzG k (rhs1 k)
  let f := fun k => la.tdmaD (M.CDB (-u k))
  let vw := computeVW G f g
  (⟨Function.update u G.zero 0, Function.update vw.1 G.zero (la.helmholtzU0 w), Function.update vw.2 G.zero (la.helmholtzU0 w')⟩, g)

/-- The systems of both solvers. -/
structure Systems (q : Quad) (G : Grid κ) (la : LA κ (Fin n → ℂ) (Fin (n + 2) → ℂ)) (cG c0 a0 : ℝ) (α β : ℝ → ℝ) : Prop where
  hG : ∀ k b, -(chebMats q n).ADD (la.helmholtzG k b) + ((G.Ksq k + cG : ℝ) : ℂ) • (chebMats q n).BDD (la.helmholtzG k b) = b
  hU : ∀ k b, (a0 : ℂ) • (chebMats q n).SBB (la.biharmonicU k b) + (α (G.Ksq k) : ℂ) • (chebMats q n).ABB (la.biharmonicU k b) +
    (β (G.Ksq k) : ℂ) • (chebMats q n).BBB (la.biharmonicU k b) = b
  h0 : ∀ b, -(chebMats q n).ADD0 (la.helmholtzU0 b) + (c0 : ℂ) • (chebMats q n).BDD0 (la.helmholtzU0 b) = b
  hD : ∀ b, (chebMats q n).BDD (la.tdmaD b) = b

variable {la : LA κ (Fin n → ℂ) (Fin (n + 2) → ℂ)} {cG c0 a0 : ℝ} {α β : ℝ → ℝ}

theorem helm_lift (S : PlaneSymm T G mask σ s) (hL : Systems q G la cG c0 a0 α β) (t : ℝ) (b : κ → Fin (n + 2) → ℂ) :
    (fun k => la.helmholtzG k ((t • lift σ r b) k)) = t • lift σ r fun k => la.helmholtzG k (b k) := by
  refine solve_lift (fun k => -(chebMats q n).ADD + ((G.Ksq k + cG : ℝ) : ℂ) • (chebMats q n).BDD) (fun v => ?_) la.helmholtzG hL.hG t b
  have h := S.helmholtz (r := r) q n (-1) (fun x => x + cG) 1 v
  simp only [one_smul] at h
  have e : ∀ (k : κ) (v : Fin (n + 2) → ℂ), (-(chebMats q n).ADD + ((G.Ksq k + cG : ℝ) : ℂ) • (chebMats q n).BDD) v =
      helmholtzCoeff (chebMats q n) (-1) (G.Ksq k + cG) v := fun k v => by
    simp only [helmholtzCoeff, LinearMap.add_apply, LinearMap.neg_apply, LinearMap.smul_apply, Complex.ofReal_neg, Complex.ofReal_one, neg_smul, one_smul]
  simp only [e]
  exact h

theorem bih_lift (S : PlaneSymm T G mask σ s) (hL : Systems q G la cG c0 a0 α β) (t : ℝ) (b : κ → Fin n → ℂ) :
    (fun k => la.biharmonicU k ((t • lift σ r b) k)) = t • lift σ r fun k => la.biharmonicU k (b k) := by
  refine solve_lift (fun k => (a0 : ℂ) • (chebMats q n).SBB + (α (G.Ksq k) : ℂ) • (chebMats q n).ABB + (β (G.Ksq k) : ℂ) • (chebMats q n).BBB)
    (fun v => ?_) la.biharmonicU hL.hU t b
  have h := S.biharmonic (r := r) q n a0 α β 1 v
  simp only [one_smul] at h
  exact h

theorem tdma_lift (hL : Systems q G la cG c0 a0 α β) (t : ℝ) (b : κ → Fin (n + 2) → ℂ) :
    (fun k => la.tdmaD ((t • lift σ r b) k)) = t • lift σ r fun k => la.tdmaD (b k) := by
  refine solve_lift (fun _ => (chebMats q n).BDD) (fun v => ?_) (fun _ => la.tdmaD) (fun _ => hL.hD) t b
  funext k
  exact (par_BDD q n).at v k

theorem helm0_lift (hL : Systems q G la cG c0 a0 α β) (t : ℝ) (b : Fin (n + 2) → ℂ) :
    la.helmholtzU0 (t • lift0 σ G r b) = t • lift0 σ G r (la.helmholtzU0 b) := by
  refine solve_lift0 (-(chebMats q n).ADD0 + (c0 : ℂ) • (chebMats q n).BDD0) (fun v => ?_) la.helmholtzU0 hL.h0 t b
  simp only [LinearMap.add_apply, LinearMap.neg_apply, LinearMap.smul_apply]
  rw [lift0_add, lift0_neg, lift0_smul, show (chebMats q n).ADD0 (lift0 σ G r v) = lift0 σ G r ((chebMats q n).ADD0 v) from (par_ADD q n).mean0 v,
    show (chebMats q n).BDD0 (lift0 σ G r v) = lift0 σ G r ((chebMats q n).BDD0 v) from (par_BDD q n).mean0 v]

theorem solved_moved (S : PlaneSymm T G mask σ s) (hL : Systems q G la cG c0 a0 α β) (rhs0 : κ → Fin n → ℂ) (rhs1 : κ → Fin (n + 2) → ℂ) (w w' : Fin (n + 2) → ℂ) :
    solved G (chebMats q n) la (sgR r • lift σ r rhs0) (moveG σ r s rhs1) (sgR (s 0) • lift0 σ G r w) (sgR (s 1) • lift0 σ G r w') =
      (moveVel σ r s (solved G (chebMats q n) la rhs0 rhs1 w w').1, moveG σ r s (solved G (chebMats q n) la rhs0 rhs1 w w').2) := by
  simp only [solved, moveG, bih_lift S hL, helm_lift S hL, helm0_lift hL]
  have hf : (fun k => la.tdmaD ((chebMats q n).CDB (-(sgR r • lift σ r fun k => la.biharmonicU k (rhs0 k)) k))) =
      lift σ r fun k => la.tdmaD ((chebMats q n).CDB (-la.biharmonicU k (rhs0 k))) := by
    have h1 : (fun k => (chebMats q n).CDB (-(sgR r • lift σ r fun k => la.biharmonicU k (rhs0 k)) k)) =
        (1 : ℝ) • lift σ r fun k => (chebMats q n).CDB (-la.biharmonicU k (rhs0 k)) := by
      have h2 := (par_CDB (σ := σ) (r := r) q n).one r fun k => la.biharmonicU k (rhs0 k)
      have h3 : sgR (r * r) = 1 := by rw [sgR_mul, sgR_mul_self]
      rw [h3, one_smul] at h2
      have h4 : (fun k => (chebMats q n).CDB (-la.biharmonicU k (rhs0 k))) = -fun k => (chebMats q n).CDB (la.biharmonicU k (rhs0 k)) := by
        funext k; simp
      rw [one_smul, h4, map_neg, ← h2]
      funext k
      simp
    have h5 := tdma_lift (σ := σ) (r := r) hL 1 fun k => (chebMats q n).CDB (-la.biharmonicU k (rhs0 k))
    rw [← h1] at h5
    rw [one_smul] at h5
    exact h5
  have hb : ∀ k, la.biharmonicU k ((sgR r • lift σ r rhs0) k) = (sgR r • lift σ r fun k => la.biharmonicU k (rhs0 k)) k := congrFun (bih_lift S hL (sgR r) rhs0)
  simp only [hb]
  rw [hf]
  have hvw := S.vw (r := r) (fun k => la.tdmaD ((chebMats q n).CDB (-la.biharmonicU k (rhs0 k)))) fun k => la.helmholtzG k (rhs1 k)
  simp only [moveG] at hvw
  rw [hvw]
  have hz : (0 : Fin n → ℂ) = sgR r • lift0 σ G r 0 := by
    have : lift0 σ G r (0 : Fin n → ℂ) = 0 := congrFun (map_zero (lift σ r)) G.zero
    rw [this, smul_zero]
  simp only [moveVel]
  rw [S.update, S.update]
  conv_lhs => rw [hz, S.update]

theorem solved_van (S : PlaneSymm T G mask σ s) (hL : Systems q G la cG c0 a0 α β) (rhs0 : κ → Fin n → ℂ) (rhs1 : κ → Fin (n + 2) → ℂ) (w w' : Fin (n + 2) → ℂ)
    (h0 : VanA mask rhs0) (h1 : VanA mask rhs1) :
    VanVel mask (solved G (chebMats q n) la rhs0 rhs1 w w').1 ∧ VanA mask (solved G (chebMats q n) la rhs0 rhs1 w w').2 := by
  have hu : VanA mask fun k => la.biharmonicU k (rhs0 k) := fun k hk => by
    refine solve_unique ((a0 : ℂ) • (chebMats q n).SBB + (α (G.Ksq k) : ℂ) • (chebMats q n).ABB + (β (G.Ksq k) : ℂ) • (chebMats q n).BBB) (la.biharmonicU k)
      (hL.hU k) _ _ ?_
    rw [map_zero, h0 k hk]
  have hg : VanA mask fun k => la.helmholtzG k (rhs1 k) := fun k hk => by
    refine solve_unique (-(chebMats q n).ADD + ((G.Ksq k + cG : ℝ) : ℂ) • (chebMats q n).BDD) (la.helmholtzG k) (hL.hG k) _ _ ?_
    rw [map_zero, h1 k hk]
  have hf : VanA mask fun k => la.tdmaD ((chebMats q n).CDB (-la.biharmonicU k (rhs0 k))) := fun k hk => by
    refine solve_unique (chebMats q n).BDD la.tdmaD hL.hD _ _ ?_
    rw [map_zero]
    simp only [hu k hk, neg_zero, map_zero]
  have hne : ∀ k, mask k = false → k ≠ G.zero := by
    rintro k hk rfl
    rw [S.keepZero] at hk
    exact absurd hk (by simp)
  refine ⟨⟨fun k hk => ?_, fun k hk => ?_, fun k hk => ?_⟩, hg⟩
  · simp only [solved, Function.update_of_ne (hne k hk)]
    exact hu k hk
  · simp only [solved, Function.update_of_ne (hne k hk), computeVW, hf k hk, hg k hk, smul_zero, sub_zero]
  · simp only [solved, Function.update_of_ne (hne k hk), computeVW, hf k hk, hg k hk, smul_zero, add_zero]

/-- A context with the Chebyshev bases and the mask, and a symmetry of its planes. -/
structure Moves (q : Quad) (kind : ConvKind) (T : Space κ X) (mask : κ → Bool) (σ : (κ → ℂ) →ₗ[ℝ] (κ → ℂ)) (s : Fin 2 → ℤˣ)
    (c : Ctx κ (Fin n → ℂ) (Fin (n + 2) → ℂ)) : Prop where
  plane : PlaneSymm T c.G mask σ s
  mats : c.M = chebMats q n
  conv : c.conv = convection kind (chebWall q n) T c.G
  mask : c.mask = some fun k => if mask k then 1 else 0

/-- The context with the source moved. -/
noncomputable def moveCtx (σ : (κ → ℂ) →ₗ[ℝ] (κ → ℂ)) (r : ℤˣ) (s : Fin 2 → ℤˣ) (c : Ctx κ (Fin n → ℂ) (Fin (n + 2) → ℂ)) : Ctx κ (Fin n → ℂ) (Fin (n + 2) → ℂ) :=
  { c with Sk := sgR (s 0) • lift0 σ c.G r c.Sk }

variable {c : Ctx κ (Fin n → ℂ) (Fin (n + 2) → ℂ)} {kind : ConvKind}

omit [DecidableEq κ] in
theorem mask_keep (m : κ → Bool) {b : ℕ} (H : Vec κ (Fin b → ℂ)) : maskVec (some fun k => if m k then (1 : ℝ) else 0) H = keepVec m H := by
  have h : ∀ a : κ → Fin b → ℂ, (fun k => (((if m k then (1 : ℝ) else 0) : ℝ) : ℂ) • a k) = keepA m a := fun a => by
    funext k
    unfold keepA
    split <;> simp
  simp only [maskVec, keepVec, h]

omit [DecidableEq κ] in
theorem keep_assemble (m : κ → Bool) {b : ℕ} (H H1 : Vec κ (Fin b → ℂ)) : keepVec m (assembleAB H H1) = assembleAB (keepVec m H) (keepVec m H1) := by
  have h : ∀ a a1 : κ → Fin b → ℂ, keepA m (fun k => (1.5 : ℂ) • a k - (0.5 : ℂ) • a1 k) = fun k => (1.5 : ℂ) • keepA m a k - (0.5 : ℂ) • keepA m a1 k := fun a a1 => by
    funext k
    unfold keepA
    split <;> simp
  simp only [assembleAB, keepVec, h]

omit [DecidableEq κ] in
theorem move_assemble {b : ℕ} (H H1 : Vec κ (Fin b → ℂ)) : assembleAB (moveVec σ r s H) (moveVec σ r s H1) = moveVec σ r s (assembleAB H H1) := by
  have h : ∀ (y : ℝ) (a a1 : κ → Fin b → ℂ), (fun k => (1.5 : ℂ) • (y • lift σ r a) k - (0.5 : ℂ) • (y • lift σ r a1) k) =
      y • lift σ r fun k => (1.5 : ℂ) • a k - (0.5 : ℂ) • a1 k := fun y a a1 => by
    have e : (fun k => (1.5 : ℂ) • a k - (0.5 : ℂ) • a1 k) = (1.5 : ℝ) • a - (0.5 : ℝ) • a1 := by
      funext k j
      simp only [Pi.sub_apply, Pi.smul_apply, smul_eq_mul, Complex.real_smul]
      push_cast; rfl
    rw [e, map_sub, map_smul, map_smul]
    funext k j
    simp only [Pi.sub_apply, Pi.smul_apply, smul_eq_mul, Complex.real_smul]
    push_cast; ring
  simp only [assembleAB, moveVec, h]

omit [DecidableEq κ] in
theorem keepVec_van (m : κ → Bool) {b : ℕ} (H : Vec κ (Fin b → ℂ)) : VanA m (keepVec m H).c0 ∧ VanA m (keepVec m H).c1 ∧ VanA m (keepVec m H).c2 :=
  ⟨keepA_van _ _, keepA_van _ _, keepA_van _ _⟩

omit [DecidableEq κ] in
theorem van_hv (G : Grid κ) (M : Mats (Fin n → ℂ) (Fin (n + 2) → ℂ)) (m : κ → Bool) (H : Vec κ (Fin (n + 2) → ℂ)) (h : VanA m H.c0 ∧ VanA m H.c1 ∧ VanA m H.c2) :
    VanA m (hvOf G M H) ∧ VanA m (hgOf G M H) :=
  ⟨fun k hk => by simp [hvOf, h.1 k hk, h.2.1 k hk, h.2.2 k hk], fun k hk => by simp [hgOf, h.2.1 k hk, h.2.2 k hk]⟩

/-! ## KMM -/

/-- The state `x'` is the state `x` after the motion. -/
structure Rel (mask : κ → Bool) (σ : (κ → ℂ) →ₗ[ℝ] (κ → ℂ)) (r : ℤˣ) (s : Fin 2 → ℤˣ) (x x' : St κ (Fin n → ℂ) (Fin (n + 2) → ℂ)) : Prop where
  U : x'.U = moveVel σ r s x.U
  U0 : x'.U0 = moveVel σ r s x.U0
  g : x'.g = moveG σ r s x.g
  H1 : keepVec mask x'.H1 = moveVec σ r s (keepVec mask x.H1)
  vanU : VanVel mask x.U
  vanG : VanA mask x.g

/-- A pass of the loop with another force in the equation of the wall-normal velocity. -/
noncomputable def tickF (c : Ctx κ (Fin n → ℂ) (Fin (n + 2) → ℂ)) (la : LA κ (Fin n → ℂ) (Fin (n + 2) → ℂ)) (F : κ → Fin n → ℂ)
    (s : St κ (Fin n → ℂ) (Fin (n + 2) → ℂ)) : St κ (Fin n → ℂ) (Fin (n + 2) → ℂ) :=
  endOfTstep (solveLinear c la (computeRHS c s).1 (fun k => (computeRHS c s).2.1 k + F k) (computeRHS c s).2.2)

theorem tickF_moved (C : Moves q kind T mask σ s c) (hla : la.Solves c.nu c.dt c.G c.M) {x x' : St κ (Fin n → ℂ) (Fin (n + 2) → ℂ)} (R : Rel mask σ r s x x')
    {F F' : κ → Fin n → ℂ} (hF : F' = sgR r • lift σ r F) (hFv : VanA mask F) :
    Rel mask σ r s (tickF c la F x) (tickF (moveCtx σ r s c) la F' x') := by
  have S := C.plane
  have hL : Systems q c.G la (2 / c.nu / c.dt) (2 / c.nu / c.dt) (-c.nu * c.dt / 2) (fun x => 1 + c.nu * c.dt * x) fun x => -(x + c.nu * c.dt / 2 * x ^ 2) := by
    have h := hla
    rw [C.mats] at h
    exact ⟨h.helmholtzG, h.biharmonicU, h.helmholtzU0, h.tdmaD⟩
  -- the convection
  have hH : keepVec mask (c.conv x'.U x'.g) = moveVec σ r s (keepVec mask (c.conv x.U x.g)) := by
    rw [C.conv, R.U, R.g]
    exact S.conv q n kind x.U R.vanU x.g R.vanG
  have hH0 : maskVec c.mask (assembleAB (c.conv x'.U x'.g) x'.H1) = moveVec σ r s (maskVec c.mask (assembleAB (c.conv x.U x.g) x.H1)) := by
    rw [C.mask, mask_keep, mask_keep, keep_assemble, keep_assemble, hH, R.H1, move_assemble]
  have hv0 : VanA mask (maskVec c.mask (assembleAB (c.conv x.U x.g) x.H1)).c0 ∧ VanA mask (maskVec c.mask (assembleAB (c.conv x.U x.g) x.H1)).c1 ∧
      VanA mask (maskVec c.mask (assembleAB (c.conv x.U x.g) x.H1)).c2 := by
    rw [C.mask, mask_keep]
    exact keepVec_van _ _
  generalize hA : maskVec c.mask (assembleAB (c.conv x.U x.g) x.H1) = A at hH0 hv0
  generalize hA' : maskVec c.mask (assembleAB (c.conv x'.U x'.g) x'.H1) = A' at hH0
  -- the right-hand sides
  let rhs0 : Vel κ (Fin n → ℂ) (Fin (n + 2) → ℂ) → Vec κ (Fin (n + 2) → ℂ) → (κ → Fin n → ℂ) → κ → Fin n → ℂ := fun U A F k => (c.dt : ℂ) • hvOf c.G (chebMats q n) A k
    + biharmonicCoeff (chebMats q n) (c.nu * c.dt / 2) (1 - c.nu * c.dt * c.G.Ksq k) (-(c.G.Ksq k - c.nu * c.dt / 2 * c.G.K4 k)) (U.u k) + F k
  let rhs1 : (κ → Fin (n + 2) → ℂ) → Vec κ (Fin (n + 2) → ℂ) → κ → Fin (n + 2) → ℂ := fun g A k => ((2 / c.nu : ℝ) : ℂ) • hgOf c.G (chebMats q n) A k
    + helmholtzCoeff (chebMats q n) 1 (-(c.G.Ksq k - 2 / c.nu / c.dt)) (g k)
  let w : Fin (n + 2) → ℂ → ℂ := fun _ z => z
  have hr0 : rhs0 x'.U A' F' = sgR r • lift σ r (rhs0 x.U A F) := by
    have e : ∀ U A F, rhs0 U A F = (c.dt • hvOf c.G (chebMats q n) A + fun k => biharmonicCoeff (chebMats q n) (c.nu * c.dt / 2) ((fun x => 1 - c.nu * c.dt * x) (c.G.Ksq k))
        ((fun x => -(x - c.nu * c.dt / 2 * x ^ 2)) (c.G.Ksq k)) (U.u k)) + F := fun U A F => rfl
    have h1 := S.biharmonic (r := r) q n (c.nu * c.dt / 2) (fun x => 1 - c.nu * c.dt * x) (fun x => -(x - c.nu * c.dt / 2 * x ^ 2)) (sgR r) x.U.u
    rw [e, e, map_add, map_add, map_smul, smul_add, smul_add, ← h1, ← hF, hH0, S.hv, smul_comm, R.U]
    rfl
  have hr1 : rhs1 x'.g A' = moveG σ r s (rhs1 x.g A) := by
    have e : ∀ g A, rhs1 g A = (2 / c.nu) • hgOf c.G (chebMats q n) A + fun k => helmholtzCoeff (chebMats q n) 1 ((fun x => -(x - 2 / c.nu / c.dt)) (c.G.Ksq k)) (g k) :=
      fun g A => rfl
    have h1 := S.helmholtz (r := r) q n 1 (fun x => -(x - 2 / c.nu / c.dt)) (sgR (s 0 * s 1)) x.g
    rw [e, e, moveG, map_add, map_smul, smul_add, ← h1, hH0, S.hg, moveG, smul_comm, R.g]
    rfl
  have hvr : VanA mask (rhs0 x.U A F) ∧ VanA mask (rhs1 x.g A) := by
    have h1 := van_hv c.G (chebMats q n) mask A hv0
    exact ⟨fun k hk => by simp [rhs0, h1.1 k hk, R.vanU.1 k hk, hFv k hk, biharmonicCoeff], fun k hk => by simp [rhs1, h1.2 k hk, R.vanG k hk, helmholtzCoeff]⟩
  -- the mean
  let w0 : Vel κ (Fin n → ℂ) (Fin (n + 2) → ℂ) → Vec κ (Fin (n + 2) → ℂ) → (Fin (n + 2) → ℂ) → Fin (n + 2) → ℂ := fun U0 A Sk =>
    (chebMats q n).BDD0 (((2 / c.nu : ℝ) : ℂ) • A.c1 c.G.zero) - ((2 / c.nu : ℝ) : ℂ) • Sk + (chebMats q n).ADD0 (U0.v c.G.zero)
    + ((2 / c.nu / c.dt : ℝ) : ℂ) • (chebMats q n).BDD0 (U0.v c.G.zero)
  let w1 : Vel κ (Fin n → ℂ) (Fin (n + 2) → ℂ) → Vec κ (Fin (n + 2) → ℂ) → Fin (n + 2) → ℂ := fun U0 A =>
    (chebMats q n).BDD0 (((2 / c.nu : ℝ) : ℂ) • A.c2 c.G.zero) + (chebMats q n).ADD0 (U0.w c.G.zero)
    + (chebMats q n).BDD0 (((2 / c.nu / c.dt : ℝ) : ℂ) • U0.w c.G.zero)
  have hB : ∀ v, (chebMats q n).BDD0 (lift0 σ c.G r v) = lift0 σ c.G r ((chebMats q n).BDD0 v) := fun v => (par_BDD q n).mean0 v
  have hAD : ∀ v, (chebMats q n).ADD0 (lift0 σ c.G r v) = lift0 σ c.G r ((chebMats q n).ADD0 v) := fun v => (par_ADD q n).mean0 v
  have hw0 : w0 x'.U0 A' (moveCtx σ r s c).Sk = sgR (s 0) • lift0 σ c.G r (w0 x.U0 A c.Sk) := by
    simp only [w0, hH0, R.U0, moveVec, moveVel, moveCtx, Pi.smul_apply, S.mean, map_smul, LinearMap.map_smul_of_tower, hB, hAD, lift0_add, lift0_sub, lift0_smul]
    module
  have hw1 : w1 x'.U0 A' = sgR (s 1) • lift0 σ c.G r (w1 x.U0 A) := by
    simp only [w1, hH0, R.U0, moveVec, moveVel, Pi.smul_apply, S.mean, map_smul, LinearMap.map_smul_of_tower, hB, hAD, lift0_add, lift0_smul]
    module
  -- the solution
  have hs := solved_moved (r := r) S hL (rhs0 x.U A F) (rhs1 x.g A) (w0 x.U0 A c.Sk) (w1 x.U0 A)
  rw [← hr0, ← hr1, ← hw0, ← hw1] at hs
  have hvan := solved_van S hL (rhs0 x.U A F) (rhs1 x.g A) (w0 x.U0 A c.Sk) (w1 x.U0 A) hvr.1 hvr.2
  have eU : ((tickF c la F x).U, (tickF c la F x).g) = solved c.G (chebMats q n) la (rhs0 x.U A F) (rhs1 x.g A) (w0 x.U0 A c.Sk) (w1 x.U0 A) := by
    simp only [rhs0, rhs1, w0, w1, ← hA, ← C.mats]
    rfl
  have eU' : ((tickF (moveCtx σ r s c) la F' x').U, (tickF (moveCtx σ r s c) la F' x').g) =
      solved c.G (chebMats q n) la (rhs0 x'.U A' F') (rhs1 x'.g A') (w0 x'.U0 A' (moveCtx σ r s c).Sk) (w1 x'.U0 A') := by
    simp only [rhs0, rhs1, w0, w1, ← hA', ← C.mats]
    rfl
  rw [hs, ← eU] at eU'
  rw [← eU] at hvan
  have e1 : (tickF (moveCtx σ r s c) la F' x').U = moveVel σ r s (tickF c la F x).U := congrArg Prod.fst eU'
  exact ⟨e1, e1, congrArg Prod.snd eU', hH, hvan.1, hvan.2⟩

theorem tick_moved (C : Moves q kind T mask σ s c) (hla : la.Solves c.nu c.dt c.G c.M) {x x' : St κ (Fin n → ℂ) (Fin (n + 2) → ℂ)} (R : Rel mask σ r s x x') :
    Rel mask σ r s (tick c la id x) (tick (moveCtx σ r s c) la id x') := by
  have e : ∀ (c : Ctx κ (Fin n → ℂ) (Fin (n + 2) → ℂ)) x, tick c la id x = tickF c la 0 x := fun c x => by simp [tick, advance, integrate, tickF]
  rw [e, e]
  exact tickF_moved C hla R (by rw [map_zero, smul_zero]) fun _ _ => rfl

theorem run_moved (C : Moves q kind T mask σ s c) (hla : la.Solves c.nu c.dt c.G c.M) {x x' : St κ (Fin n → ℂ) (Fin (n + 2) → ℂ)} (R : Rel mask σ r s x x') (m : ℕ) :
    Rel mask σ r s ((tick c la id)^[m] x) ((tick (moveCtx σ r s c) la id)^[m] x') := by
  induction m with
  | zero => exact R
  | succ m ih => rw [Function.iterate_succ_apply', Function.iterate_succ_apply']; exact tick_moved C hla ih

/-! ## KMMRK3 -/

/-- The velocity and `g` of `x'` are those of `x` after the motion. -/
structure Rel3 (mask : κ → Bool) (σ : (κ → ℂ) →ₗ[ℝ] (κ → ℂ)) (r : ℤˣ) (s : Fin 2 → ℤˣ) (x x' : St3 κ (Fin n → ℂ) (Fin (n + 2) → ℂ)) : Prop where
  U : x'.U = moveVel σ r s x.U
  g : x'.g = moveG σ r s x.g
  vanU : VanVel mask x.U
  vanG : VanA mask x.g

/-- The arrays of the previous substep, too. -/
structure Old3 (G : Grid κ) (mask : κ → Bool) (σ : (κ → ℂ) →ₗ[ℝ] (κ → ℂ)) (r : ℤˣ) (s : Fin 2 → ℤˣ) (x x' : St3 κ (Fin n → ℂ) (Fin (n + 2) → ℂ)) : Prop where
  hv : x'.hv = sgR r • lift σ r x.hv
  hg : x'.hg = moveG σ r s x.hg
  hm0 : x'.hm0 = sgR (s 0) • lift0 σ G r x.hm0
  hm1 : x'.hm1 = sgR (s 1) • lift0 σ G r x.hm1
  van : VanA mask x.hv ∧ VanA mask x.hg

/-- A substep with another force in the equation of the wall-normal velocity. -/
noncomputable def substepF (c : Ctx κ (Fin n → ℂ) (Fin (n + 2) → ℂ)) (la : Fin 3 → LA κ (Fin n → ℂ) (Fin (n + 2) → ℂ)) (rk : Fin 3) (F : κ → Fin n → ℂ)
    (s : St3 κ (Fin n → ℂ) (Fin (n + 2) → ℂ)) : St3 κ (Fin n → ℂ) (Fin (n + 2) → ℂ) :=
  solveLinear3 c (la rk) rk (computeRHS3 c rk s).1 (fun k => (computeRHS3 c rk s).2.1 k + F k) (computeRHS3 c rk s).2.2

theorem substepF_moved (C : Moves q kind T mask σ s c) {la : Fin 3 → LA κ (Fin n → ℂ) (Fin (n + 2) → ℂ)} (rk : Fin 3)
    (hla : (la rk).Solves3 c.nu c.dt (rkA rk + rkB rk) c.G c.M) {x x' : St3 κ (Fin n → ℂ) (Fin (n + 2) → ℂ)} (R : Rel3 mask σ r s x x')
    (O : rkB rk = 0 ∨ Old3 c.G mask σ r s x x') {F F' : κ → Fin n → ℂ} (hF : F' = sgR r • lift σ r F) (hFv : VanA mask F) :
    Rel3 mask σ r s (substepF c la rk F x) (substepF (moveCtx σ r s c) la rk F' x') ∧ Old3 c.G mask σ r s (substepF c la rk F x) (substepF (moveCtx σ r s c) la rk F' x') := by
  have S := C.plane
  set ab := rkA rk + rkB rk with hab
  have hL : Systems q c.G (la rk) (2 / c.nu / ab / c.dt) (2 / c.nu / ab / c.dt) (-c.nu * ab * c.dt / 2) (fun x => 1 + c.nu * ab * c.dt * x)
      fun x => -(x + c.nu * ab * c.dt / 2 * x ^ 2) := by
    have h := hla
    rw [C.mats] at h
    exact ⟨h.helmholtzG, h.biharmonicU, h.helmholtzU0, h.tdmaD⟩
  have hH : maskVec c.mask (c.conv x'.U x'.g) = moveVec σ r s (maskVec c.mask (c.conv x.U x.g)) := by
    rw [C.mask, mask_keep, mask_keep, C.conv, R.U, R.g]
    exact S.conv q n kind x.U R.vanU x.g R.vanG
  have hv0 : VanA mask (maskVec c.mask (c.conv x.U x.g)).c0 ∧ VanA mask (maskVec c.mask (c.conv x.U x.g)).c1 ∧ VanA mask (maskVec c.mask (c.conv x.U x.g)).c2 := by
    rw [C.mask, mask_keep]
    exact keepVec_van _ _
  generalize hA : maskVec c.mask (c.conv x.U x.g) = A at hH hv0
  generalize hA' : maskVec c.mask (c.conv x'.U x'.g) = A' at hH
  have hhv : hvOf c.G (chebMats q n) A' = sgR r • lift σ r (hvOf c.G (chebMats q n) A) := by rw [hH, S.hv]
  have hhg : hgOf c.G (chebMats q n) A' = moveG σ r s (hgOf c.G (chebMats q n) A) := by rw [hH, S.hg]
  have hvan := van_hv c.G (chebMats q n) mask A hv0
  have hB : ∀ v, (chebMats q n).BDD0 (lift0 σ c.G r v) = lift0 σ c.G r ((chebMats q n).BDD0 v) := fun v => (par_BDD q n).mean0 v
  have hAD : ∀ v, (chebMats q n).ADD0 (lift0 σ c.G r v) = lift0 σ c.G r ((chebMats q n).ADD0 v) := fun v => (par_ADD q n).mean0 v
  have hm0 : (chebMats q n).BDD0 (A'.c1 c.G.zero) - (moveCtx σ r s c).Sk = sgR (s 0) • lift0 σ c.G r ((chebMats q n).BDD0 (A.c1 c.G.zero) - c.Sk) := by
    simp only [hH, moveVec, moveCtx, Pi.smul_apply, S.mean, LinearMap.map_smul_of_tower, hB, lift0_sub]
    module
  have hm1 : (chebMats q n).BDD0 (A'.c2 c.G.zero) = sgR (s 1) • lift0 σ c.G r ((chebMats q n).BDD0 (A.c2 c.G.zero)) := by
    simp only [hH, moveVec, Pi.smul_apply, S.mean, LinearMap.map_smul_of_tower, hB]
  -- what is stored enters with the factor `b`
  have ob : (((rkB rk : ℝ) : ℂ) • x'.hv = sgR r • lift σ r (((rkB rk : ℝ) : ℂ) • x.hv)) ∧ (((rkB rk : ℝ) : ℂ) • x'.hg = moveG σ r s (((rkB rk : ℝ) : ℂ) • x.hg)) ∧
      (((rkB rk : ℝ) : ℂ) • x'.hm0 = sgR (s 0) • lift0 σ c.G r (((rkB rk : ℝ) : ℂ) • x.hm0)) ∧
      (((rkB rk : ℝ) : ℂ) • x'.hm1 = sgR (s 1) • lift0 σ c.G r (((rkB rk : ℝ) : ℂ) • x.hm1)) ∧
      VanA mask (((rkB rk : ℝ) : ℂ) • x.hv) ∧ VanA mask (((rkB rk : ℝ) : ℂ) • x.hg) := by
    rcases O with h0 | O
    · have z0 : ∀ m : ℕ, lift0 σ c.G r (0 : Fin m → ℂ) = 0 := fun m => congrFun (map_zero (lift σ r)) c.G.zero
      simp only [h0, Complex.ofReal_zero, zero_smul, map_zero, smul_zero, moveG, z0, true_and]
      exact ⟨fun _ _ => rfl, fun _ _ => rfl⟩
    · have e : ∀ {m : ℕ} (a : κ → Fin m → ℂ), ((rkB rk : ℝ) : ℂ) • a = rkB rk • a := fun a => by
        funext k j; simp only [Pi.smul_apply, smul_eq_mul, Complex.real_smul]
      have e0 : ∀ {m : ℕ} (a : Fin m → ℂ), ((rkB rk : ℝ) : ℂ) • a = rkB rk • a := fun a => by
        funext j; simp only [Pi.smul_apply, smul_eq_mul, Complex.real_smul]
      refine ⟨?_, ?_, ?_, ?_, fun k hk => ?_, fun k hk => ?_⟩
      · rw [e, e, map_smul, O.hv, smul_comm]
      · rw [e, e, moveG, map_smul, O.hg, moveG, smul_comm]
      · rw [lift0_smul, O.hm0, smul_comm]
      · rw [lift0_smul, O.hm1, smul_comm]
      · rw [Pi.smul_apply, O.van.1 k hk, smul_zero]
      · rw [Pi.smul_apply, O.van.2 k hk, smul_zero]
  obtain ⟨ob1, ob2, ob3, ob4, ob5, ob6⟩ := ob
  let rhs0 : Vel κ (Fin n → ℂ) (Fin (n + 2) → ℂ) → (κ → Fin n → ℂ) → Vec κ (Fin (n + 2) → ℂ) → (κ → Fin n → ℂ) → κ → Fin n → ℂ := fun U o A F k =>
    (c.dt : ℂ) • ((rkA rk : ℂ) • hvOf c.G (chebMats q n) A k + o k)
    + biharmonicCoeff (chebMats q n) (c.nu * ab * c.dt / 2) (1 - c.nu * ab * c.dt * c.G.Ksq k) (-(c.G.Ksq k - c.nu * ab * c.dt / 2 * c.G.K4 k)) (U.u k) + F k
  let rhs1 : (κ → Fin (n + 2) → ℂ) → (κ → Fin (n + 2) → ℂ) → Vec κ (Fin (n + 2) → ℂ) → κ → Fin (n + 2) → ℂ := fun g o A k =>
    ((2 / c.nu / ab : ℝ) : ℂ) • ((rkA rk : ℂ) • hgOf c.G (chebMats q n) A k + o k)
    + helmholtzCoeff (chebMats q n) 1 (-(c.G.Ksq k - 2 / c.nu / c.dt / ab)) (g k)
  have hr0 : rhs0 x'.U (((rkB rk : ℝ) : ℂ) • x'.hv) A' F' = sgR r • lift σ r (rhs0 x.U (((rkB rk : ℝ) : ℂ) • x.hv) A F) := by
    have e : ∀ U o A F, rhs0 U o A F = (c.dt • (rkA rk • hvOf c.G (chebMats q n) A + o) + fun k => biharmonicCoeff (chebMats q n) (c.nu * ab * c.dt / 2)
        ((fun x => 1 - c.nu * ab * c.dt * x) (c.G.Ksq k)) ((fun x => -(x - c.nu * ab * c.dt / 2 * x ^ 2)) (c.G.Ksq k)) (U.u k)) + F := fun U o A F => rfl
    have h1 := S.biharmonic (r := r) q n (c.nu * ab * c.dt / 2) (fun x => 1 - c.nu * ab * c.dt * x) (fun x => -(x - c.nu * ab * c.dt / 2 * x ^ 2)) (sgR r) x.U.u
    rw [e, e, map_add, map_add, map_smul, map_add, map_smul, smul_add (sgR r), smul_add (sgR r), ← h1, ← hF, ob1, hhv, R.U]
    simp only [smul_add, smul_comm (sgR r)]
    rfl
  have hr1 : rhs1 x'.g (((rkB rk : ℝ) : ℂ) • x'.hg) A' = moveG σ r s (rhs1 x.g (((rkB rk : ℝ) : ℂ) • x.hg) A) := by
    have e : ∀ g o A, rhs1 g o A = (2 / c.nu / ab) • (rkA rk • hgOf c.G (chebMats q n) A + o) + fun k => helmholtzCoeff (chebMats q n) 1
        ((fun x => -(x - 2 / c.nu / c.dt / ab)) (c.G.Ksq k)) (g k) := fun g o A => rfl
    have h1 := S.helmholtz (r := r) q n 1 (fun x => -(x - 2 / c.nu / c.dt / ab)) (sgR (s 0 * s 1)) x.g
    rw [e, e, moveG, map_add, map_smul, map_add, map_smul, smul_add (sgR (s 0 * s 1)), ← h1, ob2, hhg, moveG, moveG, R.g, moveG]
    simp only [smul_add, smul_comm (sgR (s 0 * s 1))]
  have hvr : VanA mask (rhs0 x.U (((rkB rk : ℝ) : ℂ) • x.hv) A F) ∧ VanA mask (rhs1 x.g (((rkB rk : ℝ) : ℂ) • x.hg) A) :=
    ⟨fun k hk => by simp only [rhs0, hvan.1 k hk, ob5 k hk, R.vanU.1 k hk, hFv k hk, biharmonicCoeff, map_zero, smul_zero, add_zero],
     fun k hk => by simp only [rhs1, hvan.2 k hk, ob6 k hk, R.vanG k hk, helmholtzCoeff, map_zero, smul_zero, add_zero]⟩
  let beta := 2 / c.nu / ab
  let w : (Fin (n + 2) → ℂ) → (Fin (n + 2) → ℂ) → (Fin (n + 2) → ℂ) → Fin (n + 2) → ℂ := fun h o u =>
    (beta : ℂ) • ((rkA rk : ℂ) • h + o) + (chebMats q n).ADD0 u + ((beta / c.dt : ℝ) : ℂ) • (chebMats q n).BDD0 u
  have hw : ∀ (t : ℝ) h o u, w (t • lift0 σ c.G r h) (t • lift0 σ c.G r o) (t • lift0 σ c.G r u) = t • lift0 σ c.G r (w h o u) := fun t h o u => by
    simp only [w, LinearMap.map_smul_of_tower, hB, hAD, lift0_add, lift0_smul]
    module
  have hu0 : x'.U.v c.G.zero = sgR (s 0) • lift0 σ c.G r (x.U.v c.G.zero) := by simp only [R.U, moveVel, Pi.smul_apply, S.mean]
  have hu1 : x'.U.w c.G.zero = sgR (s 1) • lift0 σ c.G r (x.U.w c.G.zero) := by simp only [R.U, moveVel, Pi.smul_apply, S.mean]
  have hs := solved_moved (r := r) S hL (rhs0 x.U (((rkB rk : ℝ) : ℂ) • x.hv) A F) (rhs1 x.g (((rkB rk : ℝ) : ℂ) • x.hg) A)
    (w ((chebMats q n).BDD0 (A.c1 c.G.zero) - c.Sk) (((rkB rk : ℝ) : ℂ) • x.hm0) (x.U.v c.G.zero))
    (w ((chebMats q n).BDD0 (A.c2 c.G.zero)) (((rkB rk : ℝ) : ℂ) • x.hm1) (x.U.w c.G.zero))
  rw [← hr0, ← hr1, ← hw, ← hw, ← hm0, ← hm1, ← ob3, ← ob4, ← hu0, ← hu1] at hs
  have hvs := solved_van S hL (rhs0 x.U (((rkB rk : ℝ) : ℂ) • x.hv) A F) (rhs1 x.g (((rkB rk : ℝ) : ℂ) • x.hg) A)
    (w ((chebMats q n).BDD0 (A.c1 c.G.zero) - c.Sk) (((rkB rk : ℝ) : ℂ) • x.hm0) (x.U.v c.G.zero))
    (w ((chebMats q n).BDD0 (A.c2 c.G.zero)) (((rkB rk : ℝ) : ℂ) • x.hm1) (x.U.w c.G.zero)) hvr.1 hvr.2
  have hz : ∀ v : Fin n → ℂ, 0 - (chebMats q n).CDB v = (chebMats q n).CDB (-v) := fun v => by rw [map_neg, zero_sub]
  have eU : ((substepF c la rk F x).U, (substepF c la rk F x).g) = solved c.G (chebMats q n) (la rk) (rhs0 x.U (((rkB rk : ℝ) : ℂ) • x.hv) A F)
      (rhs1 x.g (((rkB rk : ℝ) : ℂ) • x.hg) A) (w ((chebMats q n).BDD0 (A.c1 c.G.zero) - c.Sk) (((rkB rk : ℝ) : ℂ) • x.hm0) (x.U.v c.G.zero))
      (w ((chebMats q n).BDD0 (A.c2 c.G.zero)) (((rkB rk : ℝ) : ℂ) • x.hm1) (x.U.w c.G.zero)) := by
    simp only [substepF, solveLinear3, computeRHS3, C.mats, hz, hA]
    rfl
  have eU' : ((substepF (moveCtx σ r s c) la rk F' x').U, (substepF (moveCtx σ r s c) la rk F' x').g) = solved c.G (chebMats q n) (la rk)
      (rhs0 x'.U (((rkB rk : ℝ) : ℂ) • x'.hv) A' F') (rhs1 x'.g (((rkB rk : ℝ) : ℂ) • x'.hg) A')
      (w ((chebMats q n).BDD0 (A'.c1 c.G.zero) - (moveCtx σ r s c).Sk) (((rkB rk : ℝ) : ℂ) • x'.hm0) (x'.U.v c.G.zero))
      (w ((chebMats q n).BDD0 (A'.c2 c.G.zero)) (((rkB rk : ℝ) : ℂ) • x'.hm1) (x'.U.w c.G.zero)) := by
    simp only [substepF, solveLinear3, computeRHS3, moveCtx, C.mats, hz, hA']
    rfl
  rw [hs, ← eU] at eU'
  rw [← eU] at hvs
  refine ⟨⟨congrArg Prod.fst eU', congrArg Prod.snd eU', hvs.1, hvs.2⟩, ⟨?_, ?_, ?_, ?_, ?_⟩⟩
  · simp only [substepF, solveLinear3, computeRHS3, moveCtx, C.mats, hA, hA', hhv]
  · simp only [substepF, solveLinear3, computeRHS3, moveCtx, C.mats, hA, hA', hhg]
  · have := hm0
    simp only [substepF, solveLinear3, computeRHS3, moveCtx, C.mats, hA, hA'] at this ⊢
    exact this
  · have := hm1
    simp only [substepF, solveLinear3, computeRHS3, moveCtx, C.mats, hA, hA'] at this ⊢
    exact this
  · simp only [substepF, solveLinear3, computeRHS3, C.mats, hA]
    exact hvan

theorem substep_moved (C : Moves q kind T mask σ s c) {la : Fin 3 → LA κ (Fin n → ℂ) (Fin (n + 2) → ℂ)} (rk : Fin 3)
    (hla : (la rk).Solves3 c.nu c.dt (rkA rk + rkB rk) c.G c.M) {x x' : St3 κ (Fin n → ℂ) (Fin (n + 2) → ℂ)} (R : Rel3 mask σ r s x x')
    (O : rkB rk = 0 ∨ Old3 c.G mask σ r s x x') :
    Rel3 mask σ r s (substep c la rk x) (substep (moveCtx σ r s c) la rk x') ∧ Old3 c.G mask σ r s (substep c la rk x) (substep (moveCtx σ r s c) la rk x') := by
  have e : ∀ (c : Ctx κ (Fin n → ℂ) (Fin (n + 2) → ℂ)) x, substep c la rk x = substepF c la rk 0 x := fun c x => by simp [substep, substepF]
  rw [e, e]
  exact substepF_moved C rk hla R O (by rw [map_zero, smul_zero]) fun _ _ => rfl

theorem tick3_moved (C : Moves q kind T mask σ s c) {la : Fin 3 → LA κ (Fin n → ℂ) (Fin (n + 2) → ℂ)} (hla : ∀ rk, (la rk).Solves3 c.nu c.dt (rkA rk + rkB rk) c.G c.M)
    {x x' : St3 κ (Fin n → ℂ) (Fin (n + 2) → ℂ)} (R : Rel3 mask σ r s x x') : Rel3 mask σ r s (tick3 c la id x) (tick3 (moveCtx σ r s c) la id x') := by
  have h0 := substep_moved C 0 (hla 0) R (Or.inl rfl)
  have h1 := substep_moved C 1 (hla 1) h0.1 (Or.inr h0.2)
  exact (substep_moved C 2 (hla 2) h1.1 (Or.inr h1.2)).1

theorem run3_moved (C : Moves q kind T mask σ s c) {la : Fin 3 → LA κ (Fin n → ℂ) (Fin (n + 2) → ℂ)} (hla : ∀ rk, (la rk).Solves3 c.nu c.dt (rkA rk + rkB rk) c.G c.M)
    {x x' : St3 κ (Fin n → ℂ) (Fin (n + 2) → ℂ)} (R : Rel3 mask σ r s x x') (m : ℕ) :
    Rel3 mask σ r s ((tick3 c la id)^[m] x) ((tick3 (moveCtx σ r s c) la id)^[m] x') := by
  induction m with
  | zero => exact R
  | succ m ih => rw [Function.iterate_succ_apply', Function.iterate_succ_apply']; exact tick3_moved C hla ih

end step

end SpectralDNS.Channel

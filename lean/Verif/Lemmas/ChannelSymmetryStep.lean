import Verif.Lemmas.ChannelSymmetryConv

/-!
# The steps of KMM and KMMRK3 under the motions of the channel
-/

namespace SpectralDNS.Channel

open Polynomial Periodic

variable {κ X : Type*} {T : Space κ X} {G : Grid κ} {mask : κ → Bool} {σ : (κ → ℂ) →ₗ[ℝ] (κ → ℂ)} {s : Fin 2 → ℤˣ} {r : ℤˣ}

/-! ## Functions of the squared wavenumber, and the mean -/

theorem PlaneSymm.σ_ksq (S : PlaneSymm T G mask σ s) (a : κ → ℂ) : σ (fun k => (G.Ksq k : ℂ) * a k) = fun k => (G.Ksq k : ℂ) * σ a k := by
  have h := S.symm.laplace a
  have e : ∀ k, K2 ![G.K1, G.K2] k = G.Ksq k := fun k => by simp [K2, Fin.sum_univ_two, Grid.Ksq]
  rw [laplace_eq, laplace_eq, show (fun k => -(K2 ![G.K1, G.K2] k : ℂ) * a k) = -fun k => (G.Ksq k : ℂ) * a k by funext k; simp [e], map_neg] at h
  funext k
  have h1 := congrFun h k
  simp only [Pi.neg_apply, e] at h1
  linear_combination h1

theorem PlaneSymm.σ_local (S : PlaneSymm T G mask σ s) (a : κ → ℂ) (k : κ) (h : ∀ l, G.Ksq l = G.Ksq k → a l = 0) : σ a k = 0 := by
  let b : κ → ℂ := fun l => a l / ((G.Ksq l : ℂ) - G.Ksq k)
  have hb : a = (fun l => (G.Ksq l : ℂ) * b l) - G.Ksq k • b := by
    funext l
    simp only [Pi.sub_apply, Pi.smul_apply, Complex.real_smul, b]
    by_cases e : G.Ksq l = G.Ksq k
    · simp [h l e]
    · have : (G.Ksq l : ℂ) - G.Ksq k ≠ 0 := by
        rw [sub_ne_zero]; exact_mod_cast e
      field_simp
  rw [hb, map_sub, map_smul, S.σ_ksq]
  simp

theorem PlaneSymm.σ_congr (S : PlaneSymm T G mask σ s) (a b : κ → ℂ) (k : κ) (h : ∀ l, G.Ksq l = G.Ksq k → a l = b l) : σ a k = σ b k := by
  have := S.σ_local (a - b) k fun l hl => by simp [h l hl]
  rw [map_sub, Pi.sub_apply, sub_eq_zero] at this
  exact this

theorem PlaneSymm.real (S : PlaneSymm T G mask σ s) (f : ℝ → ℝ) {m : ℕ} (a : κ → Fin m → ℂ) :
    (fun k => (f (G.Ksq k) : ℂ) • lift σ r a k) = lift σ r fun k => (f (G.Ksq k) : ℂ) • a k := by
  funext k j
  simp only [lift_apply, Pi.smul_apply, smul_eq_mul]
  have h := S.σ_congr (fun l => (f (G.Ksq l) : ℂ) * a l j) (f (G.Ksq k) • fun l => a l j) k fun l hl => by simp [hl]
  rw [h, map_smul, Pi.smul_apply, Complex.real_smul]
  ring

/-- The motion of the mean (the wavenumber zero). -/
noncomputable def lift0 (σ : (κ → ℂ) →ₗ[ℝ] (κ → ℂ)) (G : Grid κ) (r : ℤˣ) {m : ℕ} (x : Fin m → ℂ) : Fin m → ℂ := lift σ r (fun _ => x) G.zero

theorem PlaneSymm.mean (S : PlaneSymm T G mask σ s) {m : ℕ} (a : κ → Fin m → ℂ) : lift σ r a G.zero = lift0 σ G r (a G.zero) := by
  funext j
  simp only [lift0, lift_apply]
  rw [S.σ_congr (fun k => a k j) (fun _ => a G.zero j) G.zero fun l hl => by
    rw [(S.zero l).1 (hl.trans ((S.zero _).2 rfl))]]

theorem PlaneSymm.update [DecidableEq κ] (S : PlaneSymm T G mask σ s) {m : ℕ} (y : ℝ) (a : κ → Fin m → ℂ) (x : Fin m → ℂ) :
    Function.update (y • lift σ r a) G.zero (y • lift0 σ G r x) = y • lift σ r (Function.update a G.zero x) := by
  funext k
  by_cases hk : k = G.zero
  · subst hk
    rw [Function.update_self, Pi.smul_apply, S.mean, Function.update_self]
  · rw [Function.update_of_ne hk, Pi.smul_apply, Pi.smul_apply]
    congr 1
    funext j
    simp only [lift_apply]
    congr 1
    refine S.σ_congr _ _ k fun l hl => ?_
    have : l ≠ G.zero := by
      rintro rfl
      exact hk ((S.zero k).1 (hl.symm.trans ((S.zero _).2 rfl)))
    rw [Function.update_of_ne this]

theorem Par.mean {e a b : ℕ} {P : (Fin b → ℂ) →ₗ[ℂ] (Fin a → ℂ)} (h : Par σ r e P) (x : Fin b → ℂ) : P (lift0 σ G r x) = sgR r ^ e • lift0 σ G r (P x) :=
  congrFun (h fun _ => x) G.zero

theorem lift0_add {m : ℕ} (x y : Fin m → ℂ) : lift0 σ G r (x + y) = lift0 σ G r x + lift0 σ G r y :=
  congrFun ((lift σ r).map_add (fun _ => x) fun _ => y) G.zero

theorem lift0_smul {m : ℕ} (t : ℝ) (x : Fin m → ℂ) : lift0 σ G r ((t : ℂ) • x) = (t : ℂ) • lift0 σ G r x :=
  congrFun ((lift σ r).map_smul t fun _ => x) G.zero

theorem lift0_neg {m : ℕ} (x : Fin m → ℂ) : lift0 σ G r (-x) = -lift0 σ G r x := congrFun ((lift σ r).map_neg fun _ => x) G.zero

theorem lift0_sub {m : ℕ} (x y : Fin m → ℂ) : lift0 σ G r (x - y) = lift0 σ G r x - lift0 σ G r y :=
  congrFun ((lift σ r).map_sub (fun _ => x) fun _ => y) G.zero

/-! ## The linear systems -/

theorem solve_unique {m : ℕ} (A : (Fin m → ℂ) →ₗ[ℂ] (Fin m → ℂ)) (x : (Fin m → ℂ) → Fin m → ℂ) (hx : ∀ b, A (x b) = b) (b v : Fin m → ℂ) (h : A v = b) : x b = v :=
  LinearMap.injective_iff_surjective.2 (fun b => ⟨x b, hx b⟩) ((hx b).trans h.symm)

theorem solve_lift {m : ℕ} (A : κ → (Fin m → ℂ) →ₗ[ℂ] (Fin m → ℂ)) (hA : ∀ v : κ → Fin m → ℂ, (fun k => A k (lift σ r v k)) = lift σ r fun k => A k (v k))
    (x : κ → (Fin m → ℂ) → Fin m → ℂ) (hx : ∀ k b, A k (x k b) = b) (t : ℝ) (b : κ → Fin m → ℂ) :
    (fun k => x k ((t • lift σ r b) k)) = t • lift σ r fun k => x k (b k) := by
  funext k
  refine solve_unique (A k) (x k) (hx k) _ _ ?_
  rw [Pi.smul_apply, LinearMap.map_smul_of_tower, congrFun (hA fun k => x k (b k)) k]
  simp only [hx]
  rfl

theorem solve_lift0 {m : ℕ} (A : (Fin m → ℂ) →ₗ[ℂ] (Fin m → ℂ)) (hA : ∀ v, A (lift0 σ G r v) = lift0 σ G r (A v)) (x : (Fin m → ℂ) → Fin m → ℂ)
    (hx : ∀ b, A (x b) = b) (t : ℝ) (b : Fin m → ℂ) : x (t • lift0 σ G r b) = t • lift0 σ G r (x b) := by
  refine solve_unique A x hx _ _ ?_
  rw [LinearMap.map_smul_of_tower, hA, hx]

/-! ## The matrices -/

section mats
variable (q : Quad) (n : ℕ)

theorem par_CBD : Par σ r 1 (chebMats q n).CBD := par_entry q n _ _ 1 (hasPar_psi r) (hasPar_phi r)
theorem par_BBB : Par σ r 0 (chebMats q n).BBB := par_entry q n _ _ 0 (hasPar_psi r) (hasPar_psi r)
theorem par_BDD : Par σ r 0 (chebMats q n).BDD := par_entry q n _ _ 0 (hasPar_phi r) (hasPar_phi r)
theorem par_BBD : Par σ r 0 (chebMats q n).BBD := par_entry q n _ _ 0 (hasPar_psi r) (hasPar_phi r)
theorem par_CDB : Par σ r 1 (chebMats q n).CDB := par_entry q n _ _ 1 (hasPar_phi r) (hasPar_psi r)

theorem par_ABB : Par σ r 0 (chebMats q n).ABB := fun v => by
  have := par_entry (σ := σ) q n n n 2 (hasPar_psi r) (hasPar_psi r) v
  rw [sgR_sq] at this
  rwa [pow_zero]

theorem par_SBB : Par σ r 0 (chebMats q n).SBB := fun v => by
  have := par_entry (σ := σ) q n n n 4 (hasPar_psi r) (hasPar_psi r) v
  rw [sgR_four] at this
  rwa [pow_zero]

theorem par_ADD : Par σ r 0 (chebMats q n).ADD := fun v => by
  have := par_entry (σ := σ) q n (n + 2) (n + 2) 2 (hasPar_phi r) (hasPar_phi r) v
  rw [sgR_sq] at this
  rwa [pow_zero]

theorem Par.at {a b : ℕ} {P : (Fin b → ℂ) →ₗ[ℂ] (Fin a → ℂ)} (h : Par σ r 0 P) (v : κ → Fin b → ℂ) (k : κ) : P (lift σ r v k) = lift σ r (fun k => P (v k)) k := by
  have := congrFun (h v) k
  rwa [pow_zero, one_smul] at this

theorem Par.mean0 {a b : ℕ} {P : (Fin b → ℂ) →ₗ[ℂ] (Fin a → ℂ)} (h : Par σ r 0 P) (x : Fin b → ℂ) : P (lift0 σ G r x) = lift0 σ G r (P x) := by
  rw [h.mean, pow_zero, one_smul]

theorem PlaneSymm.biharmonic (S : PlaneSymm T G mask σ s) (a0 : ℝ) (f g : ℝ → ℝ) (t : ℝ) (u : κ → Fin n → ℂ) :
    (fun k => biharmonicCoeff (chebMats q n) a0 (f (G.Ksq k)) (g (G.Ksq k)) ((t • lift σ r u) k)) =
      t • lift σ r fun k => biharmonicCoeff (chebMats q n) a0 (f (G.Ksq k)) (g (G.Ksq k)) (u k) := by
  have h1 : (fun k => biharmonicCoeff (chebMats q n) a0 (f (G.Ksq k)) (g (G.Ksq k)) (u k)) = a0 • (fun k => (chebMats q n).SBB (u k)) +
      (fun k => (f (G.Ksq k) : ℂ) • (chebMats q n).ABB (u k)) + fun k => (g (G.Ksq k) : ℂ) • (chebMats q n).BBB (u k) := rfl
  rw [h1, map_add, map_add, map_smul, ← S.real f, ← S.real g]
  funext k
  simp only [biharmonicCoeff, Pi.smul_apply, Pi.add_apply, LinearMap.map_smul_of_tower, (par_SBB q n).at, (par_ABB q n).at, (par_BBB q n).at]
  rw [show (a0 : ℂ) • t • lift σ r (fun k => (chebMats q n).SBB (u k)) k = a0 • t • lift σ r (fun k => (chebMats q n).SBB (u k)) k from rfl]
  rw [smul_add, smul_add, smul_comm t a0, smul_comm t (f (G.Ksq k) : ℂ), smul_comm t (g (G.Ksq k) : ℂ)]

theorem PlaneSymm.helmholtz (S : PlaneSymm T G mask σ s) (a0 : ℝ) (f : ℝ → ℝ) (t : ℝ) (u : κ → Fin (n + 2) → ℂ) :
    (fun k => helmholtzCoeff (chebMats q n) a0 (f (G.Ksq k)) ((t • lift σ r u) k)) = t • lift σ r fun k => helmholtzCoeff (chebMats q n) a0 (f (G.Ksq k)) (u k) := by
  have h1 : (fun k => helmholtzCoeff (chebMats q n) a0 (f (G.Ksq k)) (u k)) = a0 • (fun k => (chebMats q n).ADD (u k)) +
      fun k => (f (G.Ksq k) : ℂ) • (chebMats q n).BDD (u k) := rfl
  rw [h1, map_add, map_smul, ← S.real f]
  funext k
  simp only [helmholtzCoeff, Pi.smul_apply, Pi.add_apply, LinearMap.map_smul_of_tower, (par_ADD q n).at, (par_BDD q n).at]
  rw [show (a0 : ℂ) • t • lift σ r (fun k => (chebMats q n).ADD (u k)) k = a0 • t • lift σ r (fun k => (chebMats q n).ADD (u k)) k from rfl]
  rw [smul_add, smul_comm t a0, smul_comm t (f (G.Ksq k) : ℂ)]

theorem PlaneSymm.hv (S : PlaneSymm T G mask σ s) (H : Vec κ (Fin (n + 2) → ℂ)) :
    hvOf G (chebMats q n) (moveVec σ r s H) = sgR r • lift σ r (hvOf G (chebMats q n) H) := by
  have e : ∀ H : Vec κ (Fin (n + 2) → ℂ), hvOf G (chebMats q n) H = -(fun k => (G.Ksq k : ℂ) • (chebMats q n).BBD (H.c0 k)) -
      ik G.K1 (fun k => (chebMats q n).CBD (H.c1 k)) - ik G.K2 (fun k => (chebMats q n).CBD (H.c2 k)) := fun H => by
    funext k; simp only [hvOf, S.x1, S.x2]; rfl
  have h0 : ∀ a : κ → Fin (n + 2) → ℂ, (fun k => (G.Ksq k : ℂ) • (sgR r • lift σ r (fun k => (chebMats q n).BBD (a k))) k) =
      sgR r • lift σ r fun k => (G.Ksq k : ℂ) • (chebMats q n).BBD (a k) := fun a => by
    have := S.real (r := r) (fun x => x) fun k => (chebMats q n).BBD (a k)
    rw [← this]
    funext k
    simp only [Pi.smul_apply]
    rw [smul_comm]
  have h0' : ∀ a : κ → Fin (n + 2) → ℂ, (fun k => (G.Ksq k : ℂ) • (chebMats q n).BBD ((sgR r • lift σ r a) k)) =
      fun k => (G.Ksq k : ℂ) • (sgR r • lift σ r (fun k => (chebMats q n).BBD (a k))) k := fun a => by
    funext k
    rw [congrFun ((par_BBD q n).zero r a) k]
  rw [e, e]
  simp only [moveVec]
  rw [h0', h0, (par_CBD q n).one, (par_CBD q n).one, S.ik1, S.ik2, map_sub, map_sub, map_neg]
  simp only [sgR_mul]
  rcases sgR_cases r with e | e <;> rcases sgR_cases (s 0) with e0 | e0 <;> rcases sgR_cases (s 1) with e1 | e1 <;> rw [e, e0, e1] <;> module

theorem PlaneSymm.hg (S : PlaneSymm T G mask σ s) (H : Vec κ (Fin (n + 2) → ℂ)) :
    hgOf G (chebMats q n) (moveVec σ r s H) = moveG σ r s (hgOf G (chebMats q n) H) := by
  have e : ∀ H : Vec κ (Fin (n + 2) → ℂ), hgOf G (chebMats q n) H =
      ik G.K1 (fun k => (chebMats q n).BDD (H.c2 k)) - ik G.K2 (fun k => (chebMats q n).BDD (H.c1 k)) := fun H => by
    funext k; simp only [hgOf, S.x1, S.x2]; rfl
  rw [e, e]
  simp only [moveVec, moveG]
  rw [(par_BDD q n).zero, (par_BDD q n).zero, S.ik1, S.ik2, map_sub]
  simp only [sgR_mul]
  rcases sgR_cases (s 0) with e0 | e0 <;> rcases sgR_cases (s 1) with e1 | e1 <;> rw [e0, e1] <;> module

open Classical in
theorem PlaneSymm.vw (S : PlaneSymm T G mask σ s) {m : ℕ} (f g : κ → Fin m → ℂ) : computeVW G (lift σ r f) (moveG σ r s g) =
    (sgR (s 0) • lift σ r (computeVW G f g).1, sgR (s 1) • lift σ r (computeVW G f g).2) := by
  let d : ℝ → ℝ := fun x => (if x = 0 then 1 else x)⁻¹
  have e : ∀ f g : κ → Fin m → ℂ, computeVW G f g = (-ik G.K1 (fun k => (d (G.Ksq k) : ℂ) • f k) + ik G.K2 (fun k => (d (G.Ksq k) : ℂ) • g k),
      -ik G.K2 (fun k => (d (G.Ksq k) : ℂ) • f k) - ik G.K1 (fun k => (d (G.Ksq k) : ℂ) • g k)) := fun f g => by
    have o1 : ∀ k, (G.over1 k : ℂ) = G.K1 k * (d (G.Ksq k) : ℂ) := fun k => by simp only [Grid.over1, d, div_eq_mul_inv]; push_cast; rfl
    have o2 : ∀ k, (G.over2 k : ℂ) = G.K2 k * (d (G.Ksq k) : ℂ) := fun k => by simp only [Grid.over2, d, div_eq_mul_inv]; push_cast; rfl
    refine Prod.ext ?_ ?_ <;> funext k j <;>
      simp only [computeVW, ik, o1, o2, Pi.add_apply, Pi.sub_apply, Pi.neg_apply, Pi.smul_apply, smul_eq_mul] <;> ring
  have hd : ∀ (y : ℤˣ) (a : κ → Fin m → ℂ), (fun k => (d (G.Ksq k) : ℂ) • (sgR y • lift σ r a) k) = sgR y • lift σ r fun k => (d (G.Ksq k) : ℂ) • a k := fun y a => by
    rw [← S.real d]
    funext k
    simp only [Pi.smul_apply]
    rw [smul_comm]
  have h1 : lift σ r f = sgR 1 • lift σ r f := by simp [sgR]
  rw [e, e, h1]
  simp only [moveG]
  rw [hd, hd, S.ik1, S.ik2, S.ik1, S.ik2, map_add, map_sub, map_neg, map_neg]
  simp only [sgR_mul]
  refine Prod.ext ?_ ?_ <;> rcases sgR_cases (s 0) with e0 | e0 <;> rcases sgR_cases (s 1) with e1 | e1 <;>
    simp only [e0, e1, show sgR 1 = 1 by simp [sgR]] <;> module

end mats

end SpectralDNS.Channel

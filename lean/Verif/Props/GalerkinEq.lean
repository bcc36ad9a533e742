import Verif.Props.GalerkinField
import Verif.Props.ChannelRK3
import Verif.Spec.ChannelEq

/-!
# C78: the channel solvers solve the Navier-Stokes equations in the weak sense, in physical space
-/

namespace SpectralDNS.Channel

open Polynomial Periodic Spec.Field Spec.Channel

section field

variable {κ : Type*} [Fintype κ] (w k1 k2 : κ → ℝ)

theorem field_smul (r : ℝ) (a : κ → ℂ[X]) (x y z : ℝ) : r * field w k1 k2 a x y z = field w k1 k2 (fun k => (r : ℂ) • a k) x y z := by
  simp only [field]
  rw [← Complex.re_ofReal_mul, Finset.mul_sum]
  congr 1
  refine Finset.sum_congr rfl fun k _ => ?_
  rw [eval_smul, smul_eq_mul]; ring

theorem laplacian_field (a : κ → ℂ[X]) : laplacian (field w k1 k2 a) =
    field w k1 k2 fun k => derivative^[2] (a k) - ((k1 k * k1 k + k2 k * k2 k : ℝ) : ℂ) • a k := by
  funext x y z
  rw [laplacian, dx_field, dx_field, dy_field, dy_field, dz_field, dz_field, ← field_add, ← field_add]
  congr 1
  funext k
  rw [smul_smul, smul_smul]
  have e1 : Complex.I * (k1 k : ℂ) * (Complex.I * k1 k) = -((k1 k : ℂ) * k1 k) := by linear_combination ((k1 k : ℂ) * k1 k) * Complex.I_mul_I
  have e2 : Complex.I * (k2 k : ℂ) * (Complex.I * k2 k) = -((k2 k : ℂ) * k2 k) := by linear_combination ((k2 k : ℂ) * k2 k) * Complex.I_mul_I
  rw [e1, e2]
  push_cast
  simp only [Function.iterate_succ, Function.iterate_zero, Function.comp, id]
  module

theorem sum_field {m : ℕ} (x c : Fin m → ℝ) (a : κ → ℂ[X]) (y z : ℝ) (h : ∀ k, ∑ j, (c j : ℂ) * (a k).eval (x j : ℂ) = 0) :
    ∑ j, c j * field w k1 k2 a (x j) y z = 0 := by
  simp only [field]
  simp only [← Complex.re_ofReal_mul, Finset.mul_sum]
  rw [← Complex.re_sum, Finset.sum_comm]
  have : ∀ k, ∑ j, (c j : ℂ) * ((w k : ℂ) * (a k).eval (x j : ℂ) * Complex.exp (Complex.I * (k1 k * y + k2 k * z))) =
      (w k : ℂ) * Complex.exp (Complex.I * (k1 k * y + k2 k * z)) * ∑ j, (c j : ℂ) * (a k).eval (x j : ℂ) := fun k => by
    rw [Finset.mul_sum]
    exact Finset.sum_congr rfl fun j _ => by ring
  simp [this, h]

end field

variable {N : Fin 2 → ℕ} {L : Fin 2 → ℝ}

theorem orth_of_scalarProduct (q : Quad) (M : ℕ) (f : ℕ → ℝ[X]) {a : ℕ} (r : RModes N → ℂ[X])
    (h : ∀ k, (scalarProduct q M f (r k) : Fin a → ℂ) = 0) :
    Orthogonal (fun j : Fin M => quadPoint q M j) (fun j : Fin M => quadWeight q M j) (fun i : Fin a => f i) (fieldOf N L r) := by
  intro i y z
  refine sum_field _ _ _ (fun j : Fin M => quadPoint q M j) (fun j : Fin M => quadWeight q M j * (f i).eval (quadPoint q M j)) r y z fun k => ?_
  have := congrFun (h k) i
  rw [scalarProduct_apply, Finset.sum_range] at this
  exact this

/-- The three components of a vector in the Dirichlet basis as functions. -/
noncomputable def fieldD (q : Quad) (n : ℕ) (L : Fin 2 → ℝ) (a : RModes N → Fin (n + 2) → ℂ) : Scalar :=
  fieldOf N L fun k => (chebWall q n).fD (a k)

section Sub

variable (q : Quad) (n : ℕ) (hN : ∀ i, 0 < N i) (c : Ctx (RModes N) (Fin n → ℂ) (Fin (n + 2) → ℂ))
  (hM : c.M = chebMats q n) (hG : c.G = waveGrid N L hN) (S : ℂ[X]) (hS : c.Sk = scalarProduct q (n + 4) phi S)
include hM hG hS

/-- The equations of a step of length `tau` from `U`, `g` to `U'`, `g'` in physical space. -/
def WeakStep (q : Quad) (n : ℕ) (L : Fin 2 → ℝ) (nu tau : ℝ) (zero : RModes N) (S : ℂ[X]) (h : Vec (RModes N) (Fin (n + 2) → ℂ))
    (U : Vel (RModes N) (Fin n → ℂ) (Fin (n + 2) → ℂ)) (g : RModes N → Fin (n + 2) → ℂ)
    (U' : Vel (RModes N) (Fin n → ℂ) (Fin (n + 2) → ℂ)) (g' : RModes N → Fin (n + 2) → ℂ) : Prop :=
  let x := fun j : Fin (n + 4) => quadPoint q (n + 4) j
  let w := fun j : Fin (n + 4) => quadWeight q (n + 4) j
  let h0 := fieldD q n L h.c0
  let h1 := fieldD q n L h.c1
  let h2 := fieldD q n L h.c2
  let fD := (chebWall q n).fD
  Orthogonal x w (fun i : Fin n => psi i) (residualU nu tau h0 h1 h2 (fieldU (chebWall q n) L U) (fieldU (chebWall q n) L U')) ∧
  Orthogonal x w (fun i : Fin (n + 2) => phi i) (residualG nu tau h0 h1 h2 (fieldD q n L g) (fieldD q n L g')) ∧
  OrthogonalP x w (fun i : Fin (n + 2) => phi i) (residualMean nu tau (fD (h.c1 zero)) S (fD (U.v zero)) (fD (U'.v zero))) ∧
  OrthogonalP x w (fun i : Fin (n + 2) => phi i) (residualMean nu tau (fD (h.c2 zero)) 0 (fD (U.w zero)) (fD (U'.w zero)))

theorem weak_of_sub (γ : ℝ) (h : Vec (RModes N) (Fin (n + 2) → ℂ)) (U U' : Vel (RModes N) (Fin n → ℂ) (Fin (n + 2) → ℂ))
    (g g' : RModes N → Fin (n + 2) → ℂ) (hU : U.u c.G.zero = 0) (hU' : U'.u c.G.zero = 0) (hL : ∀ i, L i ≠ 0)
    (hs : SubEq c γ h U g U' g') : WeakStep q n L c.nu (γ * c.dt) c.G.zero S h U g U' g' := by
  obtain ⟨hu, hg, hv, hw⟩ := hs
  have tB0 : ∀ v, (chebMats q n).BBB v = scalarProduct q (n + 4) psi (expandC psi v) := fun v => entry_test q (n + 4) n 0 psi psi v
  have tB2 : ∀ v, (chebMats q n).ABB v = scalarProduct q (n + 4) psi (derivative^[2] (expandC psi v)) := fun v => entry_test q (n + 4) n 2 psi psi v
  have tB4 : ∀ v, (chebMats q n).SBB v = scalarProduct q (n + 4) psi (derivative^[4] (expandC psi v)) := fun v => entry_test q (n + 4) n 4 psi psi v
  have tBD : ∀ v, (chebMats q n).BBD v = scalarProduct q (n + 4) psi (expandC phi v) := fun v => entry_test q (n + 4) (n + 2) 0 psi phi v
  have tCD : ∀ v, (chebMats q n).CBD v = scalarProduct q (n + 4) psi (derivative^[1] (expandC phi v)) := fun v => entry_test q (n + 4) (n + 2) 1 psi phi v
  have tD0 : ∀ v, (chebMats q n).BDD v = scalarProduct q (n + 4) phi (expandC phi v) := fun v => entry_test q (n + 4) (n + 2) 0 phi phi v
  have tD2 : ∀ v, (chebMats q n).ADD v = scalarProduct q (n + 4) phi (derivative^[2] (expandC phi v)) := fun v => entry_test q (n + 4) (n + 2) 2 phi phi v
  have mean : ∀ (H S : ℂ[X]) (hD S' V V' : Fin (n + 2) → ℂ) , expandC phi hD = H → S' = scalarProduct q (n + 4) phi S →
      CrankNicolson c.M.BDD0 c.M.ADD0 c.nu (γ * c.dt) (c.M.BDD0 hD - S') V V' →
      OrthogonalP (fun j : Fin (n + 4) => quadPoint q (n + 4) j) (fun j : Fin (n + 4) => quadWeight q (n + 4) j)
        (fun i : Fin (n + 2) => phi i) (residualMean c.nu (γ * c.dt) H S (expandC phi V) (expandC phi V')) := by
    rintro H S hD S' V V' rfl rfl h i
    have key : (scalarProduct q (n + 4) phi (residualMean c.nu (γ * c.dt) (expandC phi hD) S (expandC phi V) (expandC phi V')) : Fin (n + 2) → ℂ) = 0 := by
      have e0 : c.M.BDD0 = (chebMats q n).BDD := by rw [hM]; rfl
      have e2 : c.M.ADD0 = (chebMats q n).ADD := by rw [hM]; rfl
      rw [CrankNicolson, e0, e2, tD0, tD0, tD0, tD2, tD2] at h
      simp only [residualMean, map_sub, map_add, map_smul]
      rw [← sub_eq_zero] at h
      rw [← h]
      push_cast
      module
    have := congrFun key i
    rw [scalarProduct_apply, Finset.sum_range] at this
    exact this
  refine ⟨?_, ?_, ?_, ?_⟩
  · have e : residualU c.nu (γ * c.dt) (fieldD q n L h.c0) (fieldD q n L h.c1) (fieldD q n L h.c2) (fieldU (chebWall q n) L U) (fieldU (chebWall q n) L U') =
        fieldOf N L fun k =>
          let lap := fun p : ℂ[X] => derivative^[2] p - ((scaledWaves N L 0 k * scaledWaves N L 0 k + scaledWaves N L 1 k * scaledWaves N L 1 k : ℝ) : ℂ) • p
          lap (expandC psi (U'.u k)) - lap (expandC psi (U.u k)) - ((γ * c.dt : ℝ) : ℂ) • (((c.nu / 2 : ℝ) : ℂ) • (lap (lap (expandC psi (U.u k)))
            + lap (lap (expandC psi (U'.u k)))) + ((Complex.I * scaledWaves N L 0 k) • (Complex.I * scaledWaves N L 0 k) • expandC phi (h.c0 k)
            + (Complex.I * scaledWaves N L 1 k) • (Complex.I * scaledWaves N L 1 k) • expandC phi (h.c0 k)
            - derivative ((Complex.I * scaledWaves N L 0 k) • expandC phi (h.c1 k)) - derivative ((Complex.I * scaledWaves N L 1 k) • expandC phi (h.c2 k)))) := by
      funext x y z
      simp only [residualU, force, fieldD, fieldU, fieldOf, laplacian_field, dx_field, dy_field, dz_field, ← field_add, ← field_sub, field_smul]
      rfl
    rw [e]
    apply orth_of_scalarProduct
    intro k
    have hk1 : c.G.K1 k = scaledWaves N L 0 k := by rw [hG]; rfl
    have hk2 : c.G.K2 k = scaledWaves N L 1 k := by rw [hG]; rfl
    have hX1 : c.G.X1 k = scaledWaves N L 0 k := by rw [hG]; rfl
    have hX2 : c.G.X2 k = scaledWaves N L 1 k := by rw [hG]; rfl
    by_cases hk : k = c.G.zero
    · have h0 : scaledWaves N L 0 k * scaledWaves N L 0 k + scaledWaves N L 1 k * scaledWaves N L 1 k = 0 := by
        have := (waveGrid_zero N L hN hL k).2 (by rw [hk, hG])
        exact this
      have a1 : scaledWaves N L 0 k = 0 := by nlinarith [mul_self_nonneg (scaledWaves N L 0 k), mul_self_nonneg (scaledWaves N L 1 k)]
      have a2 : scaledWaves N L 1 k = 0 := by nlinarith [mul_self_nonneg (scaledWaves N L 0 k), mul_self_nonneg (scaledWaves N L 1 k)]
      simp only [a1, a2]
      rw [hk, hU, hU']
      simp
    · have h1 := hu k hk
      have hq : c.G.Ksq k = scaledWaves N L 0 k * scaledWaves N L 0 k + scaledWaves N L 1 k * scaledWaves N L 1 k := by rw [Grid.Ksq, hk1, hk2]
      rw [hM, hX1, hX2, hq] at h1
      have hI := Complex.I_mul_I
      simp only [CrankNicolson, lap, bilap, forceU, LinearMap.sub_apply, LinearMap.add_apply, LinearMap.smul_apply, tB0, tB2, tB4, tBD, tCD] at h1
      generalize scaledWaves N L 0 k = a at h1 ⊢
      generalize scaledWaves N L 1 k = b at h1 ⊢
      simp only [iterate_derivative_sub, iterate_derivative_smul, map_sub, map_add, map_smul, smul_smul]
      simp only [← Function.iterate_add_apply, derivative_smul, map_smul]
      simp only [Function.iterate_one] at h1
      rw [← sub_eq_zero] at h1
      have e1 : Complex.I * (a : ℂ) * (Complex.I * a) = -((a : ℂ) * a) := by linear_combination ((a : ℂ) * a) * hI
      have e2 : Complex.I * (b : ℂ) * (Complex.I * b) = -((b : ℂ) * b) := by linear_combination ((b : ℂ) * b) * hI
      rw [e1, e2, ← h1]
      simp only [map_add, map_smul]
      push_cast
      module
  · have e : residualG c.nu (γ * c.dt) (fieldD q n L h.c0) (fieldD q n L h.c1) (fieldD q n L h.c2) (fieldD q n L g) (fieldD q n L g') =
        fieldOf N L fun k =>
          let lap := fun p : ℂ[X] => derivative^[2] p - ((scaledWaves N L 0 k * scaledWaves N L 0 k + scaledWaves N L 1 k * scaledWaves N L 1 k : ℝ) : ℂ) • p
          expandC phi (g' k) - expandC phi (g k) - ((γ * c.dt : ℝ) : ℂ) • (((c.nu / 2 : ℝ) : ℂ) • (lap (expandC phi (g k))
            + lap (expandC phi (g' k))) + ((Complex.I * scaledWaves N L 0 k) • expandC phi (h.c2 k) - (Complex.I * scaledWaves N L 1 k) • expandC phi (h.c1 k))) := by
      funext x y z
      simp only [residualG, curl0, fieldD, fieldOf, laplacian_field, dx_field, dy_field, dz_field, ← field_add, ← field_sub, field_smul]
      rfl
    rw [e]
    apply orth_of_scalarProduct
    intro k
    have hq : c.G.Ksq k = scaledWaves N L 0 k * scaledWaves N L 0 k + scaledWaves N L 1 k * scaledWaves N L 1 k := by rw [hG]; rfl
    have hX1 : c.G.X1 k = scaledWaves N L 0 k := by rw [hG]; rfl
    have hX2 : c.G.X2 k = scaledWaves N L 1 k := by rw [hG]; rfl
    have h1 := hg k
    rw [hM, hX1, hX2, hq] at h1
    simp only [CrankNicolson, lap, forceG, curl, LinearMap.sub_apply, LinearMap.smul_apply, tD0, tD2, map_sub, map_smul] at h1
    simp only [map_sub, map_add, map_smul]
    rw [← sub_eq_zero] at h1
    rw [← h1]
    push_cast
    module
  · exact mean _ S _ _ _ _ rfl hS hv
  · refine mean _ 0 _ 0 _ _ rfl (by rw [map_zero]) ?_
    rw [sub_zero]; exact hw

end Sub

/-- Adams-Bashforth extrapolation of the convection, with the mask. -/
noncomputable def abVec {κ D : Type*} [AddCommGroup D] [Module ℂ D] (mask : Option (κ → ℝ)) (N Nold : Vec κ D) : Vec κ D :=
  ⟨fun k => ab2Mid (maskAt mask k) (N.c0 k) (Nold.c0 k), fun k => ab2Mid (maskAt mask k) (N.c1 k) (Nold.c1 k),
   fun k => ab2Mid (maskAt mask k) (N.c2 k) (Nold.c2 k)⟩

section Runs

variable (q : Quad) (n : ℕ) (hN : ∀ i, 0 < N i) (hL : ∀ i, L i ≠ 0) (c : Ctx (RModes N) (Fin n → ℂ) (Fin (n + 2) → ℂ))
  (hM : c.M = chebMats q n) (hG : c.G = waveGrid N L hN) (S : ℂ[X]) (hS : c.Sk = scalarProduct q (n + 4) phi S)
  (hnu : c.nu ≠ 0) (hdt : c.dt ≠ 0)
  (upd : Vel (RModes N) (Fin n → ℂ) (Fin (n + 2) → ℂ) → Vel (RModes N) (Fin n → ℂ) (Fin (n + 2) → ℂ)) (hu : ∀ U, (upd U).u = U.u)
include hL hM hG hS hnu hdt hu

/-- C78: every step of a KMM run solves the discretised Navier-Stokes equations in physical space. `h` is the Adams-Bashforth
extrapolation of the convection; `upd` is what the user's `update` does after the step. -/
theorem C78_kmm (la : LA (RModes N) (Fin n → ℂ) (Fin (n + 2) → ℂ)) (hla : la.Solves c.nu c.dt c.G c.M)
    (s0 : St (RModes N) (Fin n → ℂ) (Fin (n + 2) → ℂ)) (h0 : s0.U0 = s0.U) (hz : s0.U.u c.G.zero = 0) (m : ℕ) :
    let s := fun m => (tick c la upd)^[m] s0
    let conv := fun m => c.conv (s m).U (s m).g
    let conv' := fun m => match m with
      | 0 => s0.H1
      | m + 1 => conv m
    ∃ U', (s (m + 1)).U = upd U' ∧
      WeakStep q n L c.nu c.dt c.G.zero S (abVec c.mask (conv m) (conv' m)) (s m).U (s m).g U' (s (m + 1)).g := by
  intro s conv conv'
  have hs : ∀ m, s (m + 1) = tick c la upd (s m) := fun m => Function.iterate_succ_apply' _ _ _
  have hi : ∀ m, (integrate c la (s m)).U.u c.G.zero = 0 := fun m => by simp [integrate, solveLinear]
  have hzero : ∀ m, (s m).U.u c.G.zero = 0 := fun m => by
    cases m with
    | zero => exact hz
    | succ m =>
      rw [hs]
      show (upd (integrate c la (s m)).U).u c.G.zero = 0
      rw [hu, hi]
  have hU0 : ∀ m, (s m).U0 = (s m).U := fun m => by
    cases m with
    | zero => exact h0
    | succ m => rw [hs]; rfl
  have hH1 : ∀ m, (s m).H1 = conv' m := fun m => by
    cases m with
    | zero => rfl
    | succ m => rw [hs]; rfl
  refine ⟨(integrate c la (s m)).U, by rw [hs]; rfl, ?_⟩
  have h := C34_step c la hnu hdt hla (s m)
  rw [hU0, hH1] at h
  rw [hs]
  have := weak_of_sub q n hN c hM hG S hS 1 (abVec c.mask (conv m) (conv' m)) (s m).U (integrate c la (s m)).U (s m).g (integrate c la (s m)).g
    (hzero m) (hi m) hL (by
      obtain ⟨a, b, d, e⟩ := h
      refine ⟨?_, ?_, ?_, ?_⟩ <;> rw [one_mul] <;> assumption)
  rw [one_mul] at this
  exact this

/-- C78 for KMMRK3: three substeps of lengths `8/15 dt`, `2/15 dt`, `1/3 dt`. -/
theorem C78_kmmrk3 (la : Fin 3 → LA (RModes N) (Fin n → ℂ) (Fin (n + 2) → ℂ)) (hla : ∀ rk, (la rk).Solves3 c.nu c.dt (rkA rk + rkB rk) c.G c.M)
    (s0 : St3 (RModes N) (Fin n → ℂ) (Fin (n + 2) → ℂ)) (hz : s0.U.u c.G.zero = 0) (m : ℕ) :
    let s := fun m => (tick3 c la upd)^[m] s0
    ∃ U1 g1 U2 g2 U3, let N0 := c.conv (s m).U (s m).g
      let N1 := c.conv U1 g1
      let N2 := c.conv U2 g2
      (s (m + 1)).U = upd U3 ∧
      WeakStep q n L c.nu (8 / 15 * c.dt) c.G.zero S (combine c.mask 1 0 N0 N0) (s m).U (s m).g U1 g1 ∧
      WeakStep q n L c.nu (2 / 15 * c.dt) c.G.zero S (combine c.mask (25 / 8) (-17 / 8) N1 N0) U1 g1 U2 g2 ∧
      WeakStep q n L c.nu (1 / 3 * c.dt) c.G.zero S (combine c.mask (9 / 4) (-5 / 4) N2 N1) U2 g2 U3 (s (m + 1)).g := by
  intro s
  have hs : ∀ m, s (m + 1) = tick3 c la upd (s m) := fun m => Function.iterate_succ_apply' _ _ _
  have hi : ∀ rk t, (substep c la rk t).U.u c.G.zero = 0 := fun rk t => by simp [substep, solveLinear3]
  have hzero : (s m).U.u c.G.zero = 0 := by
    cases m with
    | zero => exact hz
    | succ m =>
      rw [hs]
      show (upd (integrate3 c la (s m)).U).u c.G.zero = 0
      rw [hu]
      exact hi _ _
  obtain ⟨f0, f1, f2, -⟩ := C35_fractions
  have e0 := substep_eq c la hnu hdt 0 (hla 0) (s m) (8 / 15) f0 (by norm_num) (c.conv (s m).U (s m).g) (Or.inl rfl)
  have e1 := substep_eq c la hnu hdt 1 (hla 1) (substep c la 0 (s m)) (2 / 15) f1 (by norm_num) (c.conv (s m).U (s m).g)
    (Or.inr (substep_stored c la 0 (s m)))
  have e2 := substep_eq c la hnu hdt 2 (hla 2) (substep c la 1 (substep c la 0 (s m))) (1 / 3) f2 (by norm_num)
    (c.conv (substep c la 0 (s m)).U (substep c la 0 (s m)).g) (Or.inr (substep_stored c la 1 (substep c la 0 (s m))))
  have a0 : rkA 0 / (8 / 15) = 1 := by show (8 / 15 : ℝ) / (8 / 15) = 1; norm_num
  have b0 : rkB 0 / (8 / 15) = 0 := by show (0 : ℝ) / (8 / 15) = 0; norm_num
  have a1 : rkA 1 / (2 / 15) = 25 / 8 := by show (5 / 12 : ℝ) / (2 / 15) = 25 / 8; norm_num
  have b1 : rkB 1 / (2 / 15) = -17 / 8 := by show (-17 / 60 : ℝ) / (2 / 15) = -17 / 8; norm_num
  have a2 : rkA 2 / (1 / 3) = 9 / 4 := by show (3 / 4 : ℝ) / (1 / 3) = 9 / 4; norm_num
  have b2 : rkB 2 / (1 / 3) = -5 / 4 := by show (-5 / 12 : ℝ) / (1 / 3) = -5 / 4; norm_num
  rw [a0, b0] at e0
  rw [a1, b1] at e1
  rw [a2, b2] at e2
  refine ⟨_, _, _, _, (integrate3 c la (s m)).U, by rw [hs]; rfl,
    weak_of_sub q n hN c hM hG S hS _ _ _ _ _ _ hzero (hi _ _) hL e0, weak_of_sub q n hN c hM hG S hS _ _ _ _ _ _ (hi _ _) (hi _ _) hL e1, ?_⟩
  have := weak_of_sub q n hN c hM hG S hS _ _ _ _ _ _ (hi _ _) (hi _ _) hL e2
  rw [hs]
  exact this

end Runs

section Instance

variable (hN : ∀ i, 0 < N i) (hL : ∀ i, L i ≠ 0) (q : Quad) (n : ℕ)
include hL

/-- A channel at `nu = 1/180` with the convection of the code, driven by a pressure gradient: all hypotheses of C77 and C78 are met, from
any velocity without mean wall-normal component. -/
example (kind : ConvKind) (U : Vel (RModes N) (Fin n → ℂ) (Fin (n + 2) → ℂ)) (g : RModes N → Fin (n + 2) → ℂ)
    (hU : U.u (waveGrid N L hN).zero = 0) (H : Vec (RModes N) (Fin (n + 2) → ℂ)) (m : ℕ) :
    ∃ la : LA (RModes N) (Fin n → ℂ) (Fin (n + 2) → ℂ),
    let c : Ctx (RModes N) (Fin n → ℂ) (Fin (n + 2) → ℂ) := ⟨1 / 180, 1 / 1000, waveGrid N L hN, chebMats q n, none,
      convection kind (chebWall q n) (rspace N N) (waveGrid N L hN), scalarProduct q (n + 4) phi (Polynomial.C (-1))⟩
    let s := fun m => (tick c la id)^[m] ⟨U, g, H, H, H, U⟩
    DivergenceFree (fieldU (chebWall q n) L (s (m + 1)).U) (fieldV (chebWall q n) L (s (m + 1)).U) (fieldW (chebWall q n) L (s (m + 1)).U) ∧
    WeakStep q n L (1 / 180) (1 / 1000) c.G.zero (Polynomial.C (-1)) (abVec none (c.conv (s (m + 1)).U (s (m + 1)).g) (c.conv (s m).U (s m).g))
      (s (m + 1)).U (s (m + 1)).g (s (m + 2)).U (s (m + 2)).g := by
  obtain ⟨la, hla, -⟩ := Galerkin.C75_kmm q n (waveGrid N L hN) (1 / 180) (1 / 1000) (by norm_num) (by norm_num)
  refine ⟨la, ?_⟩
  intro c s
  refine ⟨(C77_kmm q n hN hL c rfl rfl id (fun U => ⟨rfl, fun _ _ => ⟨rfl, rfl⟩⟩) la hla.tdmaD _ m).1, ?_⟩
  obtain ⟨U', h1, h2⟩ := C78_kmm q n hN hL c rfl rfl (Polynomial.C (-1)) rfl (by norm_num [c]) (by norm_num [c]) id (fun _ => rfl) la hla
    ⟨U, g, H, H, H, U⟩ rfl hU (m + 1)
  rw [show s (m + 2) = (tick c la id)^[m + 1 + 1] ⟨U, g, H, H, H, U⟩ from rfl, h1]
  exact h2

end Instance

end SpectralDNS.Channel

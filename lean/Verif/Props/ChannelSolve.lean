import Verif.Model.Channel
import Verif.Spec.Channel

/-!
# C33: velocities returned by the channel solvers are divergence free
-/

namespace SpectralDNS.Channel

open Spec.Channel

variable {κ B D : Type*} [DecidableEq κ] [AddCommGroup B] [Module ℂ B] [AddCommGroup D] [Module ℂ D]

omit [DecidableEq κ] in
theorem vw_div (G : Grid κ) (f g : κ → D) (k : κ) (hk : G.Ksq k ≠ 0) :
    (Complex.I * G.K1 k) • (computeVW G f g).1 k + (Complex.I * G.K2 k) • (computeVW G f g).2 k = f k := by
  have h : ((G.Ksq k : ℝ) : ℂ) ≠ 0 := by exact_mod_cast hk
  have hq : ((G.Ksq k : ℝ) : ℂ) = G.K1 k * G.K1 k + G.K2 k * G.K2 k := by simp [Grid.Ksq]
  have hI : Complex.I * Complex.I = -1 := Complex.I_mul_I
  simp only [computeVW, Grid.over1, Grid.over2, if_neg hk]
  push_cast
  match_scalars
  · field_simp
    linear_combination (-(G.K1 k : ℂ) ^ 2 - (G.K2 k : ℂ) ^ 2) * hI - hq
  · field_simp
    ring

omit [DecidableEq κ] in
theorem vw_curl (G : Grid κ) (f g : κ → D) (k : κ) (hk : G.Ksq k ≠ 0) :
    curl (G.K1 k) (G.K2 k) ((computeVW G f g).1 k) ((computeVW G f g).2 k) = g k := by
  have h : ((G.Ksq k : ℝ) : ℂ) ≠ 0 := by exact_mod_cast hk
  have hq : ((G.Ksq k : ℝ) : ℂ) = G.K1 k * G.K1 k + G.K2 k * G.K2 k := by simp [Grid.Ksq]
  have hI : Complex.I * Complex.I = -1 := Complex.I_mul_I
  simp only [curl, computeVW, Grid.over1, Grid.over2, if_neg hk]
  push_cast
  match_scalars
  · field_simp
    ring
  · field_simp
    linear_combination (-(G.K1 k : ℂ) ^ 2 - (G.K2 k : ℂ) ^ 2) * hI - hq

/-- What every returned velocity satisfies: continuity at every wavenumber pair, `g` is its wall-normal vorticity at every pair but
zero, and the mean wall-normal velocity is zero. -/
def Solenoidal (c : Ctx κ B D) (U : Vel κ B D) (g : κ → D) : Prop :=
  (∀ k, Continuity c.M.BDD c.M.CDB (c.G.K1 k) (c.G.K2 k) (U.u k) (U.v k) (U.w k)) ∧
  (∀ k, k ≠ c.G.zero → curl (c.G.K1 k) (c.G.K2 k) (U.v k) (U.w k) = g k) ∧ U.u c.G.zero = 0

theorem solenoidal_aux (c : Ctx κ B D) (hz : ∀ k, c.G.Ksq k = 0 ↔ k = c.G.zero) (u : κ → B) (f g : κ → D) (x y : D)
    (hf : ∀ k, c.M.BDD (f k) = -c.M.CDB (u k)) :
    Solenoidal c ⟨Function.update u c.G.zero 0, Function.update (computeVW c.G f g).1 c.G.zero x,
      Function.update (computeVW c.G f g).2 c.G.zero y⟩ g := by
  refine ⟨fun k => ?_, fun k hk => ?_, by simp⟩
  · by_cases hk : k = c.G.zero
    · have h0 : c.G.K1 k * c.G.K1 k + c.G.K2 k * c.G.K2 k = 0 := (hz k).2 hk
      have h1 : c.G.K1 k = 0 := by nlinarith [mul_self_nonneg (c.G.K1 k), mul_self_nonneg (c.G.K2 k)]
      have h2 : c.G.K2 k = 0 := by nlinarith [mul_self_nonneg (c.G.K1 k), mul_self_nonneg (c.G.K2 k)]
      subst hk
      simp [Continuity, h1, h2]
    · have hne : c.G.Ksq k ≠ 0 := fun h => hk ((hz k).1 h)
      simp only [Continuity, Function.update_of_ne hk, vw_div c.G f g k hne, hf k]
      abel
  · have hne : c.G.Ksq k ≠ 0 := fun h => hk ((hz k).1 h)
    simp only [Function.update_of_ne hk]
    exact vw_curl c.G f g k hne

/-- C33 for KMM: whatever the state, the right-hand sides and the Galerkin matrices, provided `TDMASolverD` solves its system and only
the mean has wavenumber zero. -/
theorem C33_kmm (c : Ctx κ B D) (la : LA κ B D) (htdma : ∀ b, c.M.BDD (la.tdmaD b) = b)
    (hz : ∀ k, c.G.Ksq k = 0 ↔ k = c.G.zero) (s : St κ B D) (rhs0 : κ → B) (rhs1 : κ → D) :
    Solenoidal c (solveLinear c la s rhs0 rhs1).U (solveLinear c la s rhs0 rhs1).g := by
  apply solenoidal_aux c hz
  intro k
  rw [htdma, map_neg]

/-- C33 for every substep of KMMRK3. -/
theorem C33_kmmrk3 (c : Ctx κ B D) (la : LA κ B D) (htdma : ∀ b, c.M.BDD (la.tdmaD b) = b)
    (hz : ∀ k, c.G.Ksq k = 0 ↔ k = c.G.zero) (rk : Fin 3) (s : St3 κ B D) (rhs0 : κ → B) (rhs1 : κ → D) :
    Solenoidal c (solveLinear3 c la rk s rhs0 rhs1).U (solveLinear3 c la rk s rhs0 rhs1).g := by
  apply solenoidal_aux c hz
  intro k
  rw [htdma, zero_sub]

/-- C33 as seen by the user: after any positive number of KMM steps from any state, `get_divergence` transforms the zero array. -/
theorem C33_get_divergence (c : Ctx κ B D) (la : LA κ B D) (htdma : ∀ b, c.M.BDD (la.tdmaD b) = b)
    (htdma' : ∀ x, la.tdmaD (c.M.BDD x) = x) (hz : ∀ k, c.G.Ksq k = 0 ↔ k = c.G.zero) (s : St κ B D) (n : ℕ) (k : κ) :
    divergenceHat c.G c.M la.tdmaD ((tick c la id)^[n + 1] s).U k = 0 := by
  rw [Function.iterate_succ_apply']
  obtain ⟨h, -⟩ := C33_kmm c la htdma hz (computeRHS c ((tick c la id)^[n] s)).1 (computeRHS c ((tick c la id)^[n] s)).2.1
    (computeRHS c ((tick c la id)^[n] s)).2.2
  have h1 := h k
  simp only [Continuity] at h1
  have h2 : c.M.CDB ((tick c la id ((tick c la id)^[n] s)).U.u k) = c.M.BDD (-((Complex.I * c.G.K1 k) •
      (tick c la id ((tick c la id)^[n] s)).U.v k + (Complex.I * c.G.K2 k) • (tick c la id ((tick c la id)^[n] s)).U.w k)) := by
    rw [map_neg]
    exact eq_neg_of_add_eq_zero_left h1
  rw [divergenceHat, h2, htdma']
  abel

/-- The same for KMMRK3. -/
theorem C33_get_divergence_rk3 (c : Ctx κ B D) (la : Fin 3 → LA κ B D) (htdma : ∀ b, c.M.BDD ((la 2).tdmaD b) = b)
    (tdma : D → D) (htdma' : ∀ x, tdma (c.M.BDD x) = x) (hz : ∀ k, c.G.Ksq k = 0 ↔ k = c.G.zero) (s : St3 κ B D) (n : ℕ) (k : κ) :
    divergenceHat c.G c.M tdma ((tick3 c la id)^[n + 1] s).U k = 0 := by
  rw [Function.iterate_succ_apply']
  generalize (tick3 c la id)^[n] s = s
  obtain ⟨h, -⟩ := C33_kmmrk3 c (la 2) htdma hz 2 (computeRHS3 c 2 (substep c la 1 (substep c la 0 s))).1
    (computeRHS3 c 2 (substep c la 1 (substep c la 0 s))).2.1 (computeRHS3 c 2 (substep c la 1 (substep c la 0 s))).2.2
  have h1 := h k
  simp only [Continuity] at h1
  have h2 : c.M.CDB ((tick3 c la id s).U.u k) = c.M.BDD (-((Complex.I * c.G.K1 k) • (tick3 c la id s).U.v k
      + (Complex.I * c.G.K2 k) • (tick3 c la id s).U.w k)) := by
    rw [map_neg]
    exact eq_neg_of_add_eq_zero_left h1
  rw [divergenceHat, h2, htdma']
  abel

/-- A grid with four wavenumber pairs, identity and scaling matrices with their exact inverses: the hypotheses hold and a nonzero
velocity results. -/
noncomputable def demoGrid : Grid (Bool × Bool) where
  K1 k := if k.1 then 2 else 0
  K2 k := if k.2 then 3 else 0
  X1 k := if k.1 then 2 else 0
  X2 k := if k.2 then 3 else 0
  zero := (false, false)

theorem demoGrid_zero (k : Bool × Bool) : demoGrid.Ksq k = 0 ↔ k = demoGrid.zero := by
  obtain ⟨a, b⟩ := k
  cases a <;> cases b <;> norm_num [demoGrid, Grid.Ksq]

noncomputable def demoMats : Mats ℂ ℂ where
  CBD := LinearMap.id
  ABB := -LinearMap.id
  BBB := LinearMap.id
  SBB := LinearMap.id
  ADD := -LinearMap.id
  BDD := (2 : ℂ) • LinearMap.id
  BBD := LinearMap.id
  CDB := (3 : ℂ) • LinearMap.id
  ADD0 := -LinearMap.id
  BDD0 := (2 : ℂ) • LinearMap.id

noncomputable def demoCtx : Ctx (Bool × Bool) ℂ ℂ where
  nu := 1
  dt := 1
  G := demoGrid
  M := demoMats
  mask := none
  conv U g := ⟨fun k => U.v k * U.w k, fun k => g k + 1, fun k => U.u k * g k⟩
  Sk := 1

noncomputable def demoLA : LA (Bool × Bool) ℂ ℂ where
  helmholtzG k b := b / (1 + (demoGrid.Ksq k + 2 / 1 / 1 : ℝ) * 2)
  biharmonicU k b := b / (-1 / 2 - (1 + demoGrid.Ksq k) - (demoGrid.Ksq k + 1 / 2 * demoGrid.K4 k))
  helmholtzU0 b := b / 5
  tdmaD b := b / 2

theorem demo_solves : demoLA.Solves 1 1 demoGrid demoMats := by
  constructor
  · intro k b
    have h : (1 + ((demoGrid.Ksq k : ℝ) + 2 / 1 / 1 : ℂ) * 2) ≠ 0 := by
      have : 0 ≤ demoGrid.Ksq k := add_nonneg (mul_self_nonneg _) (mul_self_nonneg _)
      have h2 : (1 + (demoGrid.Ksq k + 2 / 1 / 1 : ℝ) * 2 : ℝ) ≠ 0 := by positivity
      have h3 := Complex.ofReal_ne_zero.2 h2
      push_cast at h3
      exact h3
    simp only [demoLA, demoMats, LinearMap.neg_apply, LinearMap.smul_apply, LinearMap.id_apply, smul_eq_mul]
    push_cast
    linear_combination div_mul_cancel₀ b h
  · intro k b
    have h : (-1 / 2 - (1 + (demoGrid.Ksq k : ℂ)) - (demoGrid.Ksq k + 1 / 2 * demoGrid.K4 k)) ≠ 0 := by
      have h1 : 0 ≤ demoGrid.Ksq k := add_nonneg (mul_self_nonneg _) (mul_self_nonneg _)
      have h4 : 0 ≤ demoGrid.K4 k := by unfold Grid.K4; positivity
      have h2 : (-1 / 2 - (1 + demoGrid.Ksq k) - (demoGrid.Ksq k + 1 / 2 * demoGrid.K4 k) : ℝ) ≠ 0 := by
        apply ne_of_lt; linarith
      have h3 := Complex.ofReal_ne_zero.2 h2
      push_cast at h3
      exact h3
    simp only [demoLA, demoMats, LinearMap.neg_apply, LinearMap.id_apply, smul_eq_mul]
    push_cast
    rw [← sub_eq_zero]
    have : b / (-1 / 2 - (1 + (demoGrid.Ksq k : ℂ)) - (demoGrid.Ksq k + 1 / 2 * demoGrid.K4 k)) *
      (-1 / 2 - (1 + (demoGrid.Ksq k : ℂ)) - (demoGrid.Ksq k + 1 / 2 * demoGrid.K4 k)) = b := div_mul_cancel₀ _ h
    linear_combination this
  · intro b
    simp only [demoLA, demoMats, LinearMap.neg_apply, LinearMap.smul_apply, LinearMap.id_apply, smul_eq_mul]
    push_cast
    ring
  · intro b
    simp only [demoLA, demoMats, LinearMap.smul_apply, LinearMap.id_apply, smul_eq_mul]
    ring

example : ∃ s, (∀ k, divergenceHat demoCtx.G demoCtx.M demoLA.tdmaD ((tick demoCtx demoLA id)^[1] s).U k = 0) ∧
    ((tick demoCtx demoLA id)^[1] s).U.v (true, false) ≠ 0 := by
  refine ⟨⟨⟨fun _ => 0, fun _ => 0, fun _ => 0⟩, fun _ => 0, ⟨fun _ => 0, fun _ => 0, fun _ => 0⟩,
    ⟨fun _ => 0, fun _ => 0, fun _ => 0⟩, ⟨fun _ => 0, fun _ => 0, fun _ => 0⟩, ⟨fun _ => 0, fun _ => 0, fun _ => 0⟩⟩,
    C33_get_divergence demoCtx demoLA demo_solves.tdmaD ?_ demoGrid_zero _ 0, ?_⟩
  · intro x
    simp [demoCtx, demoLA, demoMats]
  · norm_num [tick, advance, endOfTstep, integrate, solveLinear, computeRHS, demoCtx, demoLA, demoMats, demoGrid, computeVW,
      Grid.over1, Grid.over2, Grid.Ksq, Grid.K4, hvOf, hgOf, maskVec, assembleAB, biharmonicCoeff, helmholtzCoeff, Function.update]

end SpectralDNS.Channel

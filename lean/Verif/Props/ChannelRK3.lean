import Verif.Props.ChannelStep
import Verif.Lemmas.Order

/-!
# C35 and C37: the three-substep scheme of KMMRK3
-/

namespace SpectralDNS.Channel

open Spec.Channel

variable {κ B D : Type*} [DecidableEq κ] [AddCommGroup B] [Module ℂ B] [AddCommGroup D] [Module ℂ D]

/-- C35: the substeps cover 8/15, 2/15 and 1/3 of the step. -/
theorem C35_fractions :
    rkA 0 + rkB 0 = 8 / 15 ∧ rkA 1 + rkB 1 = 2 / 15 ∧ rkA 2 + rkB 2 = 1 / 3 ∧ ∑ i, (rkA i + rkB i) = 1 := by
  have h0 : rkA 0 + rkB 0 = 8 / 15 := by show (8 / 15 + 0 : ℝ) = _; norm_num
  have h1 : rkA 1 + rkB 1 = 2 / 15 := by show (5 / 12 + -17 / 60 : ℝ) = _; norm_num
  have h2 : rkA 2 + rkB 2 = 1 / 3 := by show (3 / 4 + -5 / 12 : ℝ) = _; norm_num
  refine ⟨h0, h1, h2, ?_⟩
  rw [Fin.sum_univ_three, h0, h1, h2]
  norm_num

/-- Equations of a substep covering the fraction `γ` of the step, the convection being represented by the vector `h`: Crank-Nicolson
over `γ dt` for the viscous terms and `γ dt` times the forcing by `h`. -/
def SubEq (c : Ctx κ B D) (γ : ℝ) (h : Vec κ D) (U : Vel κ B D) (g : κ → D) (U' : Vel κ B D) (g' : κ → D) : Prop :=
  (∀ k, k ≠ c.G.zero → CrankNicolson (lap c.M.BBB c.M.ABB (c.G.Ksq k)) (bilap c.M.BBB c.M.ABB c.M.SBB (c.G.Ksq k)) c.nu (γ * c.dt)
      (forceU c.M.BBD c.M.CBD (c.G.Ksq k) (c.G.X1 k) (c.G.X2 k) (h.c0 k) (h.c1 k) (h.c2 k)) (U.u k) (U'.u k)) ∧
  (∀ k, CrankNicolson c.M.BDD (lap c.M.BDD c.M.ADD (c.G.Ksq k)) c.nu (γ * c.dt)
      (forceG c.M.BDD (c.G.X1 k) (c.G.X2 k) (h.c1 k) (h.c2 k)) (g k) (g' k)) ∧
  CrankNicolson c.M.BDD0 c.M.ADD0 c.nu (γ * c.dt) (c.M.BDD0 (h.c1 c.G.zero) - c.Sk) (U.v c.G.zero) (U'.v c.G.zero) ∧
  CrankNicolson c.M.BDD0 c.M.ADD0 c.nu (γ * c.dt) (c.M.BDD0 (h.c2 c.G.zero)) (U.w c.G.zero) (U'.w c.G.zero)

/-- `x N + y N'` times the mask. -/
noncomputable def combine (mask : Option (κ → ℝ)) (x y : ℝ) (N N' : Vec κ D) : Vec κ D :=
  ⟨fun k => (maskAt mask k : ℂ) • ((x : ℂ) • N.c0 k + (y : ℂ) • N'.c0 k),
   fun k => (maskAt mask k : ℂ) • ((x : ℂ) • N.c1 k + (y : ℂ) • N'.c1 k),
   fun k => (maskAt mask k : ℂ) • ((x : ℂ) • N.c2 k + (y : ℂ) • N'.c2 k)⟩

/-- The stored arrays are those of the convection `N`. -/
def Stored (c : Ctx κ B D) (N : Vec κ D) (s : St3 κ B D) : Prop :=
  (∀ k, s.hv k = hvOf c.G c.M (maskVec c.mask N) k) ∧ (∀ k, s.hg k = hgOf c.G c.M (maskVec c.mask N) k) ∧
  s.hm0 = c.M.BDD0 ((maskVec c.mask N).c1 c.G.zero) - c.Sk ∧ s.hm1 = c.M.BDD0 ((maskVec c.mask N).c2 c.G.zero)

theorem substep_stored (c : Ctx κ B D) (la : Fin 3 → LA κ B D) (rk : Fin 3) (s : St3 κ B D) :
    Stored c (c.conv s.U s.g) (substep c la rk s) :=
  ⟨fun _ => rfl, fun _ => rfl, rfl, rfl⟩

theorem substep_eq (c : Ctx κ B D) (la : Fin 3 → LA κ B D) (hnu : c.nu ≠ 0) (hdt : c.dt ≠ 0) (rk : Fin 3)
    (hla : (la rk).Solves3 c.nu c.dt (rkA rk + rkB rk) c.G c.M) (s : St3 κ B D) (γ : ℝ) (hγ : rkA rk + rkB rk = γ) (hγ0 : γ ≠ 0)
    (N' : Vec κ D) (hN' : rkB rk = 0 ∨ Stored c N' s) :
    SubEq c γ (combine c.mask (rkA rk / γ) (rkB rk / γ) (c.conv s.U s.g) N') s.U s.g (substep c la rk s).U (substep c la rk s).g := by
  have hnu' : (c.nu : ℂ) ≠ 0 := by exact_mod_cast hnu
  have hdt' : (c.dt : ℂ) ≠ 0 := by exact_mod_cast hdt
  have hγ' : (γ : ℂ) ≠ 0 := by exact_mod_cast hγ0
  have hab : (rkA rk : ℂ) + (rkB rk : ℂ) = γ := by exact_mod_cast hγ
  rw [hγ] at hla
  refine ⟨fun k hk => ?_, fun k => ?_, ?_, ?_⟩
  · have hs : (rkB rk : ℂ) • s.hv k = (rkB rk : ℂ) • hvOf c.G c.M (maskVec c.mask N') k := by
      rcases hN' with h | h
      · rw [h]; simp
      · rw [h.1]
    have h := hla.biharmonicU k ((computeRHS3 c rk s).2.1 k)
    have e : (substep c la rk s).U.u k = (la rk).biharmonicU k ((computeRHS3 c rk s).2.1 k) := by
      simp [substep, solveLinear3, Function.update_of_ne hk]
    rw [e]
    generalize (la rk).biharmonicU k ((computeRHS3 c rk s).2.1 k) = x at h
    simp only [computeRHS3, hs, hγ, hvOf, maskVec_c0, maskVec_c1, maskVec_c2, biharmonicCoeff, Grid.K4, map_smul] at h
    simp only [CrankNicolson, lap, bilap, forceU, combine, LinearMap.add_apply, LinearMap.sub_apply, LinearMap.smul_apply, map_add,
      map_smul]
    push_cast at h ⊢
    rw [← sub_eq_zero] at h ⊢
    rw [← h]
    match_scalars <;> field_simp <;> ring
  · have hs : (rkB rk : ℂ) • s.hg k = (rkB rk : ℂ) • hgOf c.G c.M (maskVec c.mask N') k := by
      rcases hN' with h | h
      · rw [h]; simp
      · rw [h.2.1]
    have h := hla.helmholtzG k ((computeRHS3 c rk s).2.2 k)
    have e : (substep c la rk s).g k = (la rk).helmholtzG k ((computeRHS3 c rk s).2.2 k) := by
      simp [substep, solveLinear3]
    rw [e]
    generalize (la rk).helmholtzG k ((computeRHS3 c rk s).2.2 k) = x at h
    simp only [computeRHS3, hs, hγ, hgOf, maskVec_c1, maskVec_c2, helmholtzCoeff, map_smul] at h
    simp only [CrankNicolson, lap, forceG, curl, combine, LinearMap.sub_apply, LinearMap.smul_apply, map_add, map_sub, map_smul]
    push_cast at h ⊢
    rw [← sub_eq_zero] at h ⊢
    refine Eq.trans ?_ ((congrArg (fun z => ((c.nu * (γ * c.dt) / 2 : ℂ)) • z) h).trans (smul_zero _))
    match_scalars <;> field_simp <;> ring
  · have hs : (rkB rk : ℂ) • s.hm0 = (rkB rk : ℂ) • (c.M.BDD0 ((maskVec c.mask N').c1 c.G.zero) - c.Sk) := by
      rcases hN' with h | h
      · rw [h]; simp
      · rw [h.2.2.1]
    set b := (((2 / c.nu / (rkA rk + rkB rk) : ℝ) : ℂ) • ((rkA rk : ℂ) • (c.M.BDD0 ((computeRHS3 c rk s).1.H.c1 c.G.zero) - c.Sk)
        + (rkB rk : ℂ) • s.hm0) + c.M.ADD0 (s.U.v c.G.zero)
        + ((2 / c.nu / (rkA rk + rkB rk) / c.dt : ℝ) : ℂ) • c.M.BDD0 (s.U.v c.G.zero)) with hb
    have h := hla.helmholtzU0 b
    have e : (substep c la rk s).U.v c.G.zero = (la rk).helmholtzU0 b := by
      simp [substep, solveLinear3, computeRHS3, hb]
    rw [e]
    generalize (la rk).helmholtzU0 b = x at h
    rw [hb, hs] at h
    simp only [computeRHS3, hγ, maskVec_c1, map_smul] at h
    simp only [CrankNicolson, combine, map_add, map_smul]
    push_cast at h ⊢
    rw [← sub_eq_zero] at h ⊢
    refine Eq.trans ?_ ((congrArg (fun z => ((c.nu * (γ * c.dt) / 2 : ℂ)) • z) h).trans (smul_zero _))
    have hab' : (rkA rk : ℂ) = γ - rkB rk := by rw [← hab]; ring
    rw [hab']
    match_scalars <;> field_simp <;> ring
  · have hs : (rkB rk : ℂ) • s.hm1 = (rkB rk : ℂ) • c.M.BDD0 ((maskVec c.mask N').c2 c.G.zero) := by
      rcases hN' with h | h
      · rw [h]; simp
      · rw [h.2.2.2]
    set b := (((2 / c.nu / (rkA rk + rkB rk) : ℝ) : ℂ) • ((rkA rk : ℂ) • c.M.BDD0 ((computeRHS3 c rk s).1.H.c2 c.G.zero)
        + (rkB rk : ℂ) • s.hm1) + c.M.ADD0 (s.U.w c.G.zero)
        + ((2 / c.nu / (rkA rk + rkB rk) / c.dt : ℝ) : ℂ) • c.M.BDD0 (s.U.w c.G.zero)) with hb
    have h := hla.helmholtzU0 b
    have e : (substep c la rk s).U.w c.G.zero = (la rk).helmholtzU0 b := by
      simp [substep, solveLinear3, computeRHS3, hb]
    rw [e]
    generalize (la rk).helmholtzU0 b = x at h
    rw [hb, hs] at h
    simp only [computeRHS3, hγ, maskVec_c2, map_smul] at h
    simp only [CrankNicolson, combine, map_add, map_smul]
    push_cast at h ⊢
    rw [← sub_eq_zero] at h ⊢
    refine Eq.trans ?_ ((congrArg (fun z => ((c.nu * (γ * c.dt) / 2 : ℂ)) • z) h).trans (smul_zero _))
    match_scalars <;> field_simp <;> ring

/-- C35: a step of KMMRK3 is three substeps covering 8/15, 2/15 and 1/3 of the step, each using its fraction for the viscous and for the
convective terms; the convection of the first substep is evaluated there, the second and third combine it with that of the substep before.
Nothing is assumed about the arrays left by the previous step. -/
theorem C35_substeps (c : Ctx κ B D) (la : Fin 3 → LA κ B D) (hnu : c.nu ≠ 0) (hdt : c.dt ≠ 0)
    (hla : ∀ rk, (la rk).Solves3 c.nu c.dt (rkA rk + rkB rk) c.G c.M) (s : St3 κ B D) :
    ∃ U1 g1 U2 g2, let N0 := c.conv s.U s.g
      let N1 := c.conv U1 g1
      let N2 := c.conv U2 g2
      SubEq c (8 / 15) (combine c.mask 1 0 N0 N0) s.U s.g U1 g1 ∧
      SubEq c (2 / 15) (combine c.mask (25 / 8) (-17 / 8) N1 N0) U1 g1 U2 g2 ∧
      SubEq c (1 / 3) (combine c.mask (9 / 4) (-5 / 4) N2 N1) U2 g2 (integrate3 c la s).U (integrate3 c la s).g := by
  obtain ⟨h0, h1, h2, -⟩ := C35_fractions
  refine ⟨(substep c la 0 s).U, (substep c la 0 s).g, (substep c la 1 (substep c la 0 s)).U,
    (substep c la 1 (substep c la 0 s)).g, ?_, ?_, ?_⟩
  · have h := substep_eq c la hnu hdt 0 (hla 0) s _ h0 (by norm_num) (c.conv s.U s.g) (Or.inl rfl)
    have e1 : rkA 0 / (8 / 15) = 1 := by show (8 / 15 : ℝ) / (8 / 15) = 1; norm_num
    have e2 : rkB 0 / (8 / 15) = 0 := by show (0 : ℝ) / (8 / 15) = 0; norm_num
    rwa [e1, e2] at h
  · have h := substep_eq c la hnu hdt 1 (hla 1) (substep c la 0 s) _ h1 (by norm_num) _ (Or.inr (substep_stored c la 0 s))
    have e1 : rkA 1 / (2 / 15) = 25 / 8 := by show (5 / 12 : ℝ) / (2 / 15) = _; norm_num
    have e2 : rkB 1 / (2 / 15) = -17 / 8 := by show (-17 / 60 : ℝ) / (2 / 15) = _; norm_num
    rwa [e1, e2] at h
  · have h := substep_eq c la hnu hdt 2 (hla 2) (substep c la 1 (substep c la 0 s)) _ h2 (by norm_num) _
      (Or.inr (substep_stored c la 1 _))
    have e1 : rkA 2 / (1 / 3) = 9 / 4 := by show (3 / 4 : ℝ) / (1 / 3) = _; norm_num
    have e2 : rkB 2 / (1 / 3) = -5 / 4 := by show (-5 / 12 : ℝ) / (1 / 3) = _; norm_num
    rwa [e1, e2] at h

/-- C37 and the last part of C35: the solution after a step depends on the velocity and `g` only, not on the other arrays. -/
theorem integrate3_indep (c : Ctx κ B D) (la : Fin 3 → LA κ B D) (s t : St3 κ B D) (hU : s.U = t.U) (hg : s.g = t.g) :
    integrate3 c la s = integrate3 c la t := by
  have h : substep c la 0 s = substep c la 0 t := by
    have hb : ((rkB 0 : ℝ) : ℂ) = 0 := by show (((0 : ℝ) : ℝ) : ℂ) = 0; norm_num
    simp [substep, solveLinear3, computeRHS3, hU, hg, hb]
  rw [integrate3, h, ← integrate3]

/-- C37: the velocity and `g` determine the whole future of a KMMRK3 run, whatever the remaining arrays hold, with any `update`. -/
theorem C37_future (c : Ctx κ B D) (la : Fin 3 → LA κ B D) (upd : Vel κ B D → Vel κ B D) (s t : St3 κ B D) (hU : s.U = t.U)
    (hg : s.g = t.g) (n : ℕ) : (tick3 c la upd)^[n + 1] s = (tick3 c la upd)^[n + 1] t := by
  rw [Function.iterate_succ_apply, Function.iterate_succ_apply]
  have : tick3 c la upd s = tick3 c la upd t := by
    simp only [tick3, integrate3_indep c la s t hU hg]
  rw [this]

/-- `g` stays zero at the zero wavenumber pair. -/
theorem g_zero3 (c : Ctx κ B D) (la : Fin 3 → LA κ B D) (upd : Vel κ B D → Vel κ B D) (hX1 : c.G.X1 c.G.zero = 0)
    (hX2 : c.G.X2 c.G.zero = 0) (hh : ∀ rk, (la rk).helmholtzG c.G.zero 0 = 0) (s0 : St3 κ B D) (h0 : s0.g c.G.zero = 0) (n : ℕ) :
    ((tick3 c la upd)^[n] s0).g c.G.zero = 0 := by
  have hst : ∀ (rk : Fin 3) (s : St3 κ B D), s.g c.G.zero = 0 → (rkB rk = 0 ∨ s.hg c.G.zero = 0) →
      (substep c la rk s).g c.G.zero = 0 ∧ (substep c la rk s).hg c.G.zero = 0 := by
    intro rk s h1 h2
    constructor
    · rcases h2 with h2 | h2 <;>
        simp [substep, solveLinear3, computeRHS3, hgOf, hX1, hX2, helmholtzCoeff, h1, h2, hh]
    · simp [substep, solveLinear3, computeRHS3, hgOf, hX1, hX2]
  induction n with
  | zero => exact h0
  | succ n ih =>
    rw [Function.iterate_succ_apply']
    have a0 := hst 0 _ ih (Or.inl rfl)
    have a1 := hst 1 _ a0.1 (Or.inr a0.2)
    exact (hst 2 _ a1.1 (Or.inr a1.2)).1

/-- C37: restarting KMMRK3 from the single stored level into any context continues exactly as the uninterrupted run, provided `update`
leaves the wall-normal vorticity alone and `g` has no mean at the start. -/
theorem C37_restart (c : Ctx κ B D) (la : Fin 3 → LA κ B D) (upd : Vel κ B D → Vel κ B D)
    (htdma : ∀ b, c.M.BDD ((la 2).tdmaD b) = b) (hz : ∀ k, c.G.Ksq k = 0 ↔ k = c.G.zero)
    (hX1 : c.G.X1 c.G.zero = 0) (hX2 : c.G.X2 c.G.zero = 0) (hh : ∀ rk, (la rk).helmholtzG c.G.zero 0 = 0)
    (hupd : ∀ U, vorticity c.G (upd U) = vorticity c.G U) (s0 fresh : St3 κ B D) (hg0 : s0.g c.G.zero = 0) (n m : ℕ) :
    let stored := ((tick3 c la upd)^[n + 1] s0).U
    ((tick3 c la upd)^[m] (initFromFile3 c fresh stored)).U = ((tick3 c la upd)^[n + 1 + m] s0).U ∧
    ((tick3 c la upd)^[m] (initFromFile3 c fresh stored)).g = ((tick3 c la upd)^[n + 1 + m] s0).g := by
  intro stored
  have hg : (initFromFile3 c fresh stored).g = ((tick3 c la upd)^[n + 1] s0).g := by
    have hg := g_zero3 c la upd hX1 hX2 hh s0 hg0 (n + 1)
    simp only [stored]
    rw [Function.iterate_succ_apply'] at hg ⊢
    generalize (tick3 c la upd)^[n] s0 = s at hg
    funext k
    have h := C33_kmmrk3 c (la 2) htdma hz 2 (computeRHS3 c 2 (substep c la 1 (substep c la 0 s))).1
      (computeRHS3 c 2 (substep c la 1 (substep c la 0 s))).2.1 (computeRHS3 c 2 (substep c la 1 (substep c la 0 s))).2.2
    by_cases hk : k = c.G.zero
    · have hq : c.G.K1 k * c.G.K1 k + c.G.K2 k * c.G.K2 k = 0 := (hz k).2 hk
      have h1 : c.G.K1 k = 0 := by nlinarith [mul_self_nonneg (c.G.K1 k), mul_self_nonneg (c.G.K2 k)]
      have h2 : c.G.K2 k = 0 := by nlinarith [mul_self_nonneg (c.G.K1 k), mul_self_nonneg (c.G.K2 k)]
      rw [hk, hg, ← hk]
      simp [initFromFile3, vorticity, h1, h2]
    · have h3 := h.2.1 k hk
      have h4 := congrFun (hupd (integrate3 c la s).U) k
      exact h4.trans h3
  cases m with
  | zero => exact ⟨rfl, hg⟩
  | succ m =>
    rw [C37_future c la upd (initFromFile3 c fresh stored) ((tick3 c la upd)^[n + 1] s0) rfl hg m, ← Function.iterate_add_apply]
    rw [show n + 1 + (m + 1) = m + 1 + (n + 1) by omega]
    exact ⟨rfl, rfl⟩

/-! ## The explicit part as a Runge-Kutta method -/

/-- Coefficients of the explicit Runge-Kutta method behind the substeps. -/
def explAQ : ℕ → ℕ → ℚ
  | 1, 0 => 8 / 15
  | 2, 0 => 1 / 4
  | 2, 1 => 5 / 12
  | _, _ => 0

/-- Weights of the explicit Runge-Kutta method behind the substeps. -/
def explbQ : ℕ → ℚ
  | 0 => 1 / 4
  | 2 => 3 / 4
  | _ => 0

/-- The coefficients as real numbers. -/
noncomputable def explA (i j : ℕ) : ℝ := (explAQ i j : ℝ)
/-- The weights as real numbers. -/
noncomputable def explb (i : ℕ) : ℝ := (explbQ i : ℝ)

/-- C35: the explicit method satisfies all order conditions up to order three, not only those of linear problems. -/
theorem C35_order : Spec.HasOrder 3 explA explb 3 := by
  apply hasOrder_cast
  apply hasOrder_of_all
  decide +kernel

theorem expl_explicit : Explicit 3 explA := by
  have h : ∀ i < 3, ∀ j < 3, i ≤ j → explAQ i j = 0 := by decide +kernel
  intro i hi j hj hij
  show ((explAQ i j : ℚ) : ℝ) = 0
  rw [h i hi j hj hij, Rat.cast_zero]

/-- Low-storage form of the explicit method. -/
theorem expl_rkNew {V : Type*} [AddCommGroup V] [Module ℝ V] (f : V → V) (dt : ℝ) (x x1 x2 x3 : V)
    (h1 : x1 = x + (8 / 15 * dt) • f x) (h2 : x2 = x1 + (2 / 15 * dt) • ((25 / 8 : ℝ) • f x1 + (-17 / 8 : ℝ) • f x))
    (h3 : x3 = x2 + (1 / 3 * dt) • ((9 / 4 : ℝ) • f x2 + (-5 / 4 : ℝ) • f x1)) : x3 = Spec.rkNew 3 explA explb f dt x := by
  have k0 : Spec.stages explA f dt x 0 = f x := by
    rw [Spec.stages]; simp
  have k1 : Spec.stages explA f dt x 1 = f x1 := by
    rw [Spec.stages, h1]
    simp only [Fin.sum_univ_one, Fin.val_zero, k0]
    congr 2
    norm_num [explA, explAQ]
    congr 1
    ring
  have k2 : Spec.stages explA f dt x 2 = f x2 := by
    rw [Spec.stages, h2, h1]
    simp only [Fin.sum_univ_two, Fin.val_zero, Fin.val_one, k0, k1, ← h1]
    congr 1
    rw [h1]
    norm_num [explA, explAQ]
    module
  rw [Spec.rkNew, Finset.sum_range_succ, Finset.sum_range_succ, Finset.sum_range_one, k0, k1, k2, h3, h2]
  nth_rewrite 1 [h1]
  norm_num [explb, explbQ]
  module

/-- On linear problems one step of the explicit method is the Taylor polynomial of degree three of the exponential. -/
theorem C35_linear {V : Type*} [AddCommGroup V] [Module ℝ V] (L : Module.End ℝ V) (dt : ℝ) (u : V) :
    Spec.rkNew 3 explA explb (fun u => L u) dt u =
      u + dt • L u + (dt ^ 2 / 2) • (L ^ 2) u + (dt ^ 3 / 6) • (L ^ 3) u := by
  rw [rkNew_linear 3 explA explb expl_explicit L dt u]
  have hw : ∀ m < 3, (tall m).weight 3 explA explb = 1 / ((m + 1).factorial : ℝ) := by
    intro m hm
    rw [C35_order (tall m) (by rw [tall_order]; omega), tall_dens]
  rw [Finset.sum_range_succ, Finset.sum_range_succ, Finset.sum_range_one, hw 0 (by norm_num), hw 1 (by norm_num), hw 2 (by norm_num)]
  norm_num [Nat.factorial]
  module

/-- The primary unknowns of the solver: wall-normal velocity, wall-normal vorticity, mean velocities. -/
abbrev Prim (κ B D : Type*) := (κ → B) × (κ → D) × D × D

/-- Primary unknowns of a velocity and vorticity. -/
def pack (z : κ) (U : Vel κ B D) (g : κ → D) : Prim κ B D := (U.u, g, U.v z, U.w z)

/-- Velocity recovered from the primary unknowns by continuity and the definition of vorticity. -/
noncomputable def unpack (c : Ctx κ B D) (tdma : D → D) (x : Prim κ B D) : Vel κ B D :=
  ⟨x.1, Function.update (computeVW c.G (fun k => tdma (0 - c.M.CDB (x.1 k))) x.2.1).1 c.G.zero x.2.2.1,
   Function.update (computeVW c.G (fun k => tdma (0 - c.M.CDB (x.1 k))) x.2.1).2 c.G.zero x.2.2.2⟩

theorem substep_unpack (c : Ctx κ B D) (la : Fin 3 → LA κ B D) (rk : Fin 3) (s : St3 κ B D) :
    (substep c la rk s).U = unpack c (la rk).tdmaD (pack c.G.zero (substep c la rk s).U (substep c la rk s).g) := by
  ext k
  · rfl
  · by_cases hk : k = c.G.zero
    · subst hk; simp [unpack, pack]
    · simp [unpack, pack, substep, solveLinear3, Function.update_of_ne hk, computeVW]
  · by_cases hk : k = c.G.zero
    · subst hk; simp [unpack, pack]
    · simp [unpack, pack, substep, solveLinear3, Function.update_of_ne hk, computeVW]

/-- `f` is the convective rate of change of the primary unknowns: mass matrix times `f` is the forcing by the convection. -/
def ConvRate (c : Ctx κ B D) (tdma : D → D) (f : Prim κ B D → Prim κ B D) : Prop :=
  ∀ x, let N := combine c.mask 1 0 (c.conv (unpack c tdma x) x.2.1) (c.conv (unpack c tdma x) x.2.1)
    (∀ k, k ≠ c.G.zero → lap c.M.BBB c.M.ABB (c.G.Ksq k) ((f x).1 k) =
      forceU c.M.BBD c.M.CBD (c.G.Ksq k) (c.G.X1 k) (c.G.X2 k) (N.c0 k) (N.c1 k) (N.c2 k)) ∧ (f x).1 c.G.zero = 0 ∧
    (∀ k, c.M.BDD ((f x).2.1 k) = forceG c.M.BDD (c.G.X1 k) (c.G.X2 k) (N.c1 k) (N.c2 k)) ∧
    c.M.BDD0 (f x).2.2.1 = c.M.BDD0 (N.c1 c.G.zero) - c.Sk ∧ c.M.BDD0 (f x).2.2.2 = c.M.BDD0 (N.c2 c.G.zero)

/-- A substep without viscous terms. -/
theorem inviscid_substep (c : Ctx κ B D) (tdma : D → D) (f : Prim κ B D → Prim κ B D) (hf : ConvRate c tdma f)
    (hL1 : ∀ k, k ≠ c.G.zero → bilap c.M.BBB c.M.ABB c.M.SBB (c.G.Ksq k) = 0) (hL2 : ∀ k, lap c.M.BDD c.M.ADD (c.G.Ksq k) = 0) (hL3 : c.M.ADD0 = 0)
    (hM1 : ∀ k, k ≠ c.G.zero → Function.Injective (lap c.M.BBB c.M.ABB (c.G.Ksq k))) (hM2 : Function.Injective c.M.BDD)
    (hM3 : Function.Injective c.M.BDD0) (γ x y : ℝ) (hxy : x + y = 1) (U : Vel κ B D) (g : κ → D) (p q : Prim κ B D)
    (hp : p = pack c.G.zero U g) (hpz : p.1 c.G.zero = 0) (U' : Vel κ B D) (g' : κ → D) (hz' : U'.u c.G.zero = 0)
    (h : SubEq c γ (combine c.mask x y (c.conv (unpack c tdma p) p.2.1) (c.conv (unpack c tdma q) q.2.1)) U g U' g') :
    pack c.G.zero U' g' = p + (γ * c.dt) • (x • f p + y • f q) := by
  obtain ⟨a1, a2, a3, a4, a5⟩ := hf p
  obtain ⟨b1, b2, b3, b4, b5⟩ := hf q
  obtain ⟨h1, h2, h3, h4⟩ := h
  have hxy' : (x : ℂ) + y = 1 := by exact_mod_cast hxy
  subst hp
  set p := pack c.G.zero U g with hp
  refine Prod.ext (funext fun k => ?_) (Prod.ext (funext fun k => ?_) (Prod.ext ?_ ?_))
  · by_cases hk : k = c.G.zero
    · rw [hk]
      simp only [Prod.fst_add, Prod.smul_fst, Pi.add_apply, Pi.smul_apply, a2, b2, hpz]
      simp [pack, hz']
    · have h1 := h1 k hk
      simp only [CrankNicolson, hL1 k hk, LinearMap.zero_apply, smul_zero, sub_zero, add_zero] at h1
      apply hM1 k hk
      refine h1.trans ?_
      have e : (p + (γ * c.dt) • (x • f p + y • f q)).1 k =
          U.u k + ((γ * c.dt : ℝ) : ℂ) • ((x : ℂ) • (f p).1 k + (y : ℂ) • (f q).1 k) := by
        simp only [Complex.coe_smul]
        rfl
      rw [e]
      simp only [map_add, map_smul, a1 k hk, b1 k hk]
      simp only [forceU, combine, map_add, map_smul]
      push_cast
      module
  · have h2 := h2 k
    simp only [CrankNicolson, hL2, LinearMap.zero_apply, smul_zero, sub_zero, add_zero] at h2
    apply hM2
    refine h2.trans ?_
    have e : (p + (γ * c.dt) • (x • f p + y • f q)).2.1 k =
        g k + ((γ * c.dt : ℝ) : ℂ) • ((x : ℂ) • (f p).2.1 k + (y : ℂ) • (f q).2.1 k) := by
      simp only [Complex.coe_smul]
      rfl
    rw [e]
    simp only [map_add, map_smul, a3 k, b3 k]
    simp only [forceG, curl, combine, map_add, map_sub, map_smul]
    push_cast
    module
  · simp only [CrankNicolson, hL3, LinearMap.zero_apply, smul_zero, sub_zero, add_zero] at h3
    apply hM3
    refine h3.trans ?_
    have e : (p + (γ * c.dt) • (x • f p + y • f q)).2.2.1 =
        U.v c.G.zero + ((γ * c.dt : ℝ) : ℂ) • ((x : ℂ) • (f p).2.2.1 + (y : ℂ) • (f q).2.2.1) := by
      simp only [Complex.coe_smul]
      rfl
    rw [e]
    simp only [map_add, map_smul, a4, b4]
    simp only [combine, map_add, map_smul]
    push_cast
    have hy : (y : ℂ) = 1 - x := by rw [← hxy']; ring
    rw [hy]
    module
  · simp only [CrankNicolson, hL3, LinearMap.zero_apply, smul_zero, sub_zero, add_zero] at h4
    apply hM3
    refine h4.trans ?_
    have e : (p + (γ * c.dt) • (x • f p + y • f q)).2.2.2 =
        U.w c.G.zero + ((γ * c.dt : ℝ) : ℂ) • ((x : ℂ) • (f p).2.2.2 + (y : ℂ) • (f q).2.2.2) := by
      simp only [Complex.coe_smul]
      rfl
    rw [e]
    simp only [map_add, map_smul, a5, b5]
    simp only [combine, map_add, map_smul]
    push_cast
    module

/-- C35: with the viscous terms switched off (vanishing viscous operators, invertible mass matrices) a step of KMMRK3 on the primary
unknowns is one step of the explicit Runge-Kutta method of `C35_order` for any, also nonlinear, convection. -/
theorem C35_explicit (c : Ctx κ B D) (la : Fin 3 → LA κ B D) (hnu : c.nu ≠ 0) (hdt : c.dt ≠ 0)
    (hla : ∀ rk, (la rk).Solves3 c.nu c.dt (rkA rk + rkB rk) c.G c.M) (tdma : D → D) (ht : ∀ rk, (la rk).tdmaD = tdma)
    (f : Prim κ B D → Prim κ B D) (hf : ConvRate c tdma f)
    (hL1 : ∀ k, k ≠ c.G.zero → bilap c.M.BBB c.M.ABB c.M.SBB (c.G.Ksq k) = 0) (hL2 : ∀ k, lap c.M.BDD c.M.ADD (c.G.Ksq k) = 0) (hL3 : c.M.ADD0 = 0)
    (hM1 : ∀ k, k ≠ c.G.zero → Function.Injective (lap c.M.BBB c.M.ABB (c.G.Ksq k))) (hM2 : Function.Injective c.M.BDD)
    (hM3 : Function.Injective c.M.BDD0) (s : St3 κ B D)
    (hs : s.U = unpack c tdma (pack c.G.zero s.U s.g)) (hsz : s.U.u c.G.zero = 0) :
    pack c.G.zero (integrate3 c la s).U (integrate3 c la s).g = Spec.rkNew 3 explA explb f c.dt (pack c.G.zero s.U s.g) := by
  obtain ⟨w0, w1, w2, -⟩ := C35_fractions
  have z : ∀ rk (s : St3 κ B D), (substep c la rk s).U.u c.G.zero = 0 := fun rk s => by simp [substep, solveLinear3]
  have u : ∀ rk (s : St3 κ B D), (substep c la rk s).U = unpack c tdma (pack c.G.zero (substep c la rk s).U (substep c la rk s).g) :=
    fun rk s => by rw [← ht rk]; exact substep_unpack c la rk s
  have g0 : rkA 0 / (8 / 15) = 1 := by show (8 / 15 : ℝ) / (8 / 15) = 1; norm_num
  have g1 : rkB 0 / (8 / 15) = 0 := by show (0 : ℝ) / (8 / 15) = 0; norm_num
  have g2 : rkA 1 / (2 / 15) = 25 / 8 := by show (5 / 12 : ℝ) / (2 / 15) = _; norm_num
  have g3 : rkB 1 / (2 / 15) = -17 / 8 := by show (-17 / 60 : ℝ) / (2 / 15) = _; norm_num
  have g4 : rkA 2 / (1 / 3) = 9 / 4 := by show (3 / 4 : ℝ) / (1 / 3) = _; norm_num
  have g5 : rkB 2 / (1 / 3) = -5 / 4 := by show (-5 / 12 : ℝ) / (1 / 3) = _; norm_num
  have e1 := substep_eq c la hnu hdt 0 (hla 0) s _ w0 (by norm_num) (c.conv s.U s.g) (Or.inl rfl)
  have e2 := substep_eq c la hnu hdt 1 (hla 1) (substep c la 0 s) _ w1 (by norm_num) _ (Or.inr (substep_stored c la 0 s))
  have e3 := substep_eq c la hnu hdt 2 (hla 2) (substep c la 1 (substep c la 0 s)) _ w2 (by norm_num) _
      (Or.inr (substep_stored c la 1 _))
  rw [g0, g1] at e1
  rw [g2, g3] at e2
  rw [g4, g5] at e3
  have hconv0 : c.conv s.U s.g = c.conv (unpack c tdma (pack c.G.zero s.U s.g)) (pack c.G.zero s.U s.g).2.1 := by
    rw [← hs]; rfl
  have hconv : ∀ rk (s : St3 κ B D), c.conv (substep c la rk s).U (substep c la rk s).g =
      c.conv (unpack c tdma (pack c.G.zero (substep c la rk s).U (substep c la rk s).g))
        (pack c.G.zero (substep c la rk s).U (substep c la rk s).g).2.1 := by
    intro rk s
    rw [← u rk s]; rfl
  rw [hconv0] at e1
  rw [hconv 0, hconv0] at e2
  rw [hconv 1, hconv 0] at e3
  have k1 := inviscid_substep c tdma f hf hL1 hL2 hL3 hM1 hM2 hM3 _ _ _ (by norm_num) _ _ _ _ rfl hsz _ _ (z 0 s) e1
  have k2 := inviscid_substep c tdma f hf hL1 hL2 hL3 hM1 hM2 hM3 (2 / 15) (25 / 8) (-17 / 8) (by norm_num) (substep c la 0 s).U
    (substep c la 0 s).g _ _ rfl (z 0 s) _ _ (z 1 _) e2
  have k3 := inviscid_substep c tdma f hf hL1 hL2 hL3 hM1 hM2 hM3 (1 / 3) (9 / 4) (-5 / 4) (by norm_num)
    (substep c la 1 (substep c la 0 s)).U (substep c la 1 (substep c la 0 s)).g _ _ rfl (z 1 _) _ _ (z 2 _) e3
  refine expl_rkNew f c.dt _ _ _ _ ?_ k2 k3
  rw [k1]
  simp

/-- Exact solvers for `demoMats` with any fraction `ab`. -/
noncomputable def demoLA3 (ab : ℝ) : LA (Bool × Bool) ℂ ℂ where
  helmholtzG k b := b / (1 + (demoGrid.Ksq k + 2 / 1 / ab / 1 : ℝ) * 2)
  biharmonicU k b := b / (-(ab / 2) - (1 + ab * demoGrid.Ksq k) - (demoGrid.Ksq k + ab / 2 * demoGrid.K4 k) : ℝ)
  helmholtzU0 b := b / (1 + (2 / 1 / ab / 1 : ℝ) * 2)
  tdmaD b := b / 2

theorem demo_solves3 (ab : ℝ) (hab : 0 < ab) : (demoLA3 ab).Solves3 1 1 ab demoGrid demoMats := by
  constructor
  · intro k b
    have h : (1 + ((demoGrid.Ksq k + 2 / 1 / ab / 1 : ℝ) : ℂ) * 2) ≠ 0 := by
      have : 0 ≤ demoGrid.Ksq k := add_nonneg (mul_self_nonneg _) (mul_self_nonneg _)
      have h2 : (1 + (demoGrid.Ksq k + 2 / 1 / ab / 1 : ℝ) * 2 : ℝ) ≠ 0 := by positivity
      exact_mod_cast h2
    simp only [demoLA3, demoMats, LinearMap.neg_apply, LinearMap.smul_apply, LinearMap.id_apply, smul_eq_mul]
    linear_combination div_mul_cancel₀ b h
  · intro k b
    have h : (((-(ab / 2) - (1 + ab * demoGrid.Ksq k) - (demoGrid.Ksq k + ab / 2 * demoGrid.K4 k) : ℝ)) : ℂ) ≠ 0 := by
      have h1 : 0 ≤ demoGrid.Ksq k := add_nonneg (mul_self_nonneg _) (mul_self_nonneg _)
      have h4 : 0 ≤ demoGrid.K4 k := by unfold Grid.K4; positivity
      have h5 : 0 ≤ ab * demoGrid.Ksq k := by positivity
      have h6 : 0 ≤ ab / 2 * demoGrid.K4 k := by positivity
      have h2 : (-(ab / 2) - (1 + ab * demoGrid.Ksq k) - (demoGrid.Ksq k + ab / 2 * demoGrid.K4 k) : ℝ) ≠ 0 := by
        apply ne_of_lt; linarith
      exact_mod_cast h2
    simp only [demoLA3, demoMats, LinearMap.neg_apply, LinearMap.id_apply, smul_eq_mul]
    have := div_mul_cancel₀ b h
    push_cast at this ⊢
    linear_combination this
  · intro b
    have h : (1 + ((2 / 1 / ab / 1 : ℝ) : ℂ) * 2) ≠ 0 := by
      have h2 : (1 + (2 / 1 / ab / 1 : ℝ) * 2 : ℝ) ≠ 0 := by positivity
      exact_mod_cast h2
    simp only [demoLA3, demoMats, LinearMap.neg_apply, LinearMap.smul_apply, LinearMap.id_apply, smul_eq_mul]
    linear_combination div_mul_cancel₀ b h
  · intro b
    simp only [demoLA3, demoMats, LinearMap.smul_apply, LinearMap.id_apply, smul_eq_mul]
    ring

theorem ab_pos (rk : Fin 3) : 0 < rkA rk + rkB rk := by
  obtain ⟨h0, h1, h2, -⟩ := C35_fractions
  fin_cases rk
  · show 0 < rkA 0 + rkB 0; rw [h0]; norm_num
  · show 0 < rkA 1 + rkB 1; rw [h1]; norm_num
  · show 0 < rkA 2 + rkB 2; rw [h2]; norm_num

/-- The hypotheses of `C35_substeps` and `C37_restart` hold for the demonstration matrices and any state with `g` zero at the mean. -/
example (s : St3 (Bool × Bool) ℂ ℂ) :=
  C35_substeps demoCtx (fun rk => demoLA3 (rkA rk + rkB rk)) (by norm_num [demoCtx]) (by norm_num [demoCtx])
    (fun rk => demo_solves3 _ (ab_pos rk)) s

example (s fresh : St3 (Bool × Bool) ℂ ℂ) (h : s.g (false, false) = 0) :=
  C37_restart demoCtx (fun rk => demoLA3 (rkA rk + rkB rk)) id (demo_solves3 _ (ab_pos 2)).tdmaD demoGrid_zero
    rfl rfl (fun rk => by simp [demoLA3]) (fun _ => rfl) s fresh h

/-- An inviscid mean flow with a quadratic convection term. -/
noncomputable def eulerCtx : Ctx Unit ℂ ℂ where
  nu := 1
  dt := 1 / 10
  G := ⟨fun _ => 0, fun _ => 0, fun _ => 0, fun _ => 0, ()⟩
  M := ⟨0, LinearMap.id, 0, 0, 0, LinearMap.id, 0, 0, 0, LinearMap.id⟩
  mask := none
  conv U _ := ⟨0, fun k => U.v k * U.w k, fun k => U.v k ^ 2⟩
  Sk := 1

/-- `C35_explicit` applies to it. -/
example (s : St3 Unit ℂ ℂ) (hs : s.U.u () = 0) :
    pack () (integrate3 eulerCtx (fun rk => ⟨fun _ b => b / (2 / (rkA rk + rkB rk) * 10), fun _ b => b,
      fun b => b / (2 / (rkA rk + rkB rk) * 10), id⟩) s).U
      (integrate3 eulerCtx (fun rk => ⟨fun _ b => b / (2 / (rkA rk + rkB rk) * 10), fun _ b => b,
      fun b => b / (2 / (rkA rk + rkB rk) * 10), id⟩) s).g =
    Spec.rkNew 3 explA explb (fun x => (0, 0, x.2.2.1 * x.2.2.2 - 1, x.2.2.1 ^ 2)) (1 / 10) (pack () s.U s.g) := by
  refine C35_explicit eulerCtx _ (by norm_num [eulerCtx]) (by norm_num [eulerCtx]) ?_ id (fun _ => rfl) _ ?_ ?_ ?_ rfl ?_ ?_ ?_ s ?_ hs
  · intro rk
    have h : ((rkA rk + rkB rk : ℂ)) ≠ 0 := by exact_mod_cast (ab_pos rk).ne'
    constructor
    · intro k b
      simp [eulerCtx, Grid.Ksq]
      field_simp
    · intro k b
      simp [eulerCtx, Grid.Ksq]
    · intro b
      simp [eulerCtx]
      field_simp
    · intro b
      simp [eulerCtx]
  · intro x
    simp [eulerCtx, unpack, combine, maskAt, forceG, curl]
  · intro k hk
    exact absurd rfl hk
  · intro k
    simp [eulerCtx, lap, Grid.Ksq]
  · intro k hk
    exact absurd rfl hk
  · exact fun _ _ h => h
  · exact fun _ _ h => h
  · ext k <;> simp [unpack, pack, eulerCtx]

end SpectralDNS.Channel

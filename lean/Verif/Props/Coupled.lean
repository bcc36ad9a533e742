import Verif.Model.Coupled
import Verif.Props.ChannelStep
import Verif.Props.MultDiv

/-!
# C67 to C69: the coupled channel solvers
-/

namespace SpectralDNS.Coupled

open Spec.Channel
open SpectralDNS.Channel (Grid Vec maskVec maskAt maskVec_c0 maskVec_c1 maskVec_c2)

variable {κ D P R : Type*} [DecidableEq κ] [AddCommGroup D] [Module ℂ D] [AddCommGroup P] [Module ℂ P] [AddCommGroup R] [Module ℂ R]
variable {R' : Type*} [AddCommGroup R'] [Module ℂ R'] {rest : R →ₗ[ℂ] R'} {pin0 pin1 : P →ₗ[ℂ] ℂ}

/-! ## Specification -/

/-- Momentum equations of a step of size `δ` from `U` to `U'` with forces `F` and pressure `p`: Crank-Nicolson for the viscous terms, in
Galerkin form. -/
def Momentum (c : Ctx κ D P R) (δ : ℝ) (F : Vec κ D) (p : κ → P) (U U' : Vel κ D) : Prop :=
  ∀ k, CrankNicolson c.M.BDD (lap c.M.BDD c.M.ADD (c.G.Ksq k)) c.nu δ (F.c0 k - c.M.CDP (p k)) (U.c0 k) (U'.c0 k) ∧
    CrankNicolson c.M.BDD (lap c.M.BDD c.M.ADD (c.G.Ksq k)) c.nu δ (F.c1 k - (Complex.I * c.G.K1 k) • c.M.BDP (p k)) (U.c1 k) (U'.c1 k) ∧
    CrankNicolson c.M.BDD (lap c.M.BDD c.M.ADD (c.G.Ksq k)) c.nu δ (F.c2 k - (Complex.I * c.G.K2 k) • c.M.BDP (p k)) (U.c2 k) (U'.c2 k)

/-- The divergence has no component along the pressure test functions. -/
def Incompressible (c : Ctx κ D P R) (U : Vel κ D) : Prop :=
  ∀ k, c.M.CPD (U.c0 k) + (Complex.I * c.G.K1 k) • c.M.BPD (U.c1 k) + (Complex.I * c.G.K2 k) • c.M.BPD (U.c2 k) = 0

/-- Weak form of convection plus source. -/
noncomputable def force (c : Ctx κ D P R) (N : Vec κ D) : Vec κ D :=
  ⟨fun k => c.M.BDD (N.c0 k), fun k => c.M.BDD (N.c1 k) - c.Sk1 k, fun k => c.M.BDD (N.c2 k)⟩

/-- Adams-Bashforth extrapolation of the convection. -/
noncomputable def ab2 (c : Ctx κ D P R) (N Nold : Vec κ D) : Vec κ D :=
  ⟨fun k => ab2Mid (maskAt c.mask k) (N.c0 k) (Nold.c0 k), fun k => ab2Mid (maskAt c.mask k) (N.c1 k) (Nold.c1 k),
   fun k => ab2Mid (maskAt c.mask k) (N.c2 k) (Nold.c2 k)⟩

/-! ## C67 -/

omit [DecidableEq κ] in
theorem assemble_eq (c : Ctx κ D P R) (H H1 : Vec κ D) : maskVec c.mask (assembleAB H H1) = ab2 c H H1 := by
  ext k
  · exact Channel.ab_c0 c.mask H H1 k
  · exact Channel.ab_c1 c.mask H H1 k
  · exact Channel.ab_c2 c.mask H H1 k

/-- A row of the block system, multiplied out. -/
theorem row_cn {V : Type*} [AddCommGroup V] [Module ℂ V] (M A : V →ₗ[ℂ] V) (nu δ g ksq : ℝ) (hnu : nu ≠ 0) (hδ : δ ≠ 0) (hg : g ≠ 0)
    (F q x x' : V)
    (h : ((2 / nu / δ : ℝ) : ℂ) • M x' - (A x' - (ksq : ℂ) • M x') + ((2 / nu / g : ℝ) : ℂ) • q =
      A x + ((2 / nu / δ - ksq : ℝ) : ℂ) • M x + ((2 / nu : ℝ) : ℂ) • F) :
    CrankNicolson M (lap M A ksq) nu δ (F - ((1 / g : ℝ) : ℂ) • q) x x' := by
  have hnu' : (nu : ℂ) ≠ 0 := by exact_mod_cast hnu
  have hδ' : (δ : ℂ) ≠ 0 := by exact_mod_cast hδ
  have hg' : (g : ℂ) ≠ 0 := by exact_mod_cast hg
  simp only [CrankNicolson, lap, LinearMap.sub_apply, LinearMap.smul_apply]
  push_cast at h ⊢
  rw [← sub_eq_zero] at h ⊢
  refine Eq.trans ?_ ((congrArg (fun z => ((nu * δ / 2 : ℂ)) • z) h).trans (smul_zero _))
  match_scalars <;> field_simp <;> ring

/-- The wall-normal mean velocity found by the solver vanishes already. -/
theorem mean_zero {c : Ctx κ D P R} {alfa beta : ℝ} {solve : Vec κ D → Vel κ D × (κ → P)} (hs : Solves c alfa beta rest pin0 pin1 solve)
    (hβ : beta ≠ 0) (hinj : ∀ u, rest (c.M.CPD u) = 0 → u = 0) (rhs : Vec κ D) : (solve rhs).1.c0 c.G.zero = 0 := by
  have h := hs.cont0 rhs
  rw [map_smul, smul_eq_zero] at h
  exact hinj _ (h.resolve_left (by exact_mod_cast hβ))

theorem solve_incompressible {c : Ctx κ D P R} {alfa beta : ℝ} {solve : Vec κ D → Vel κ D × (κ → P)}
    (hs : Solves c alfa beta rest pin0 pin1 solve) (hβ : beta ≠ 0) (hinj : ∀ u, rest (c.M.CPD u) = 0 → u = 0)
    (h1 : c.G.K1 c.G.zero = 0) (h2 : c.G.K2 c.G.zero = 0) (rhs : Vec κ D) : Incompressible c (solve rhs).1 := by
  intro k
  by_cases hk : k = c.G.zero
  · rw [hk, mean_zero hs hβ hinj, h1, h2]
    simp
  · have h := hs.cont rhs k hk
    rw [smul_eq_zero] at h
    exact h.resolve_left (by exact_mod_cast hβ)

/-- C67 for one step of Coupled from any context. `hinj`: the rows kept at the mean determine the wall-normal velocity there. -/
theorem C67_step (c : Ctx κ D P R) (hnu : c.nu ≠ 0) (hdt : c.dt ≠ 0) (hinj : ∀ u, rest (c.M.CPD u) = 0 → u = 0)
    (h1 : c.G.K1 c.G.zero = 0) (h2 : c.G.K2 c.G.zero = 0) (solve : Vec κ D → Vel κ D × (κ → P))
    (hs : Solves c (2 / c.nu / c.dt) (2 / c.nu) rest pin0 pin1 solve) (s : St κ D P) :
    Momentum c c.dt (force c (ab2 c (c.conv s.U) s.H1)) (integrate c solve s).pr s.U (integrate c solve s).U ∧
    Incompressible c (integrate c solve s).U := by
  have hβ : 2 / c.nu ≠ 0 := div_ne_zero two_ne_zero hnu
  have hU : (integrate c solve s).U = (solve (computeRHS c s).2).1 := by
    ext k
    · by_cases hk : k = c.G.zero
      · rw [hk, mean_zero hs hβ hinj]
        simp [integrate]
      · simp [integrate, Function.update_of_ne hk]
    · rfl
    · rfl
  have hP : (integrate c solve s).pr = (solve (computeRHS c s).2).2 := rfl
  rw [hU, hP]
  refine ⟨fun k => ?_, solve_incompressible hs hβ hinj h1 h2 _⟩
  have m0 := hs.mom0 (computeRHS c s).2 k
  have m1 := hs.mom1 (computeRHS c s).2 k
  have m2 := hs.mom2 (computeRHS c s).2 k
  generalize solve (computeRHS c s).2 = up at m0 m1 m2 ⊢
  simp only [computeRHS, abMatvec, assemble_eq] at m0 m1 m2
  have hd : (2 / c.nu : ℝ) = 2 / c.nu / 1 := by rw [div_one]
  refine ⟨?_, ?_, ?_⟩
  · have := row_cn c.M.BDD c.M.ADD c.nu c.dt 1 (c.G.Ksq k) hnu hdt one_ne_zero ((force c (ab2 c (c.conv s.U) s.H1)).c0 k) (c.M.CDP (up.2 k))
      (s.U.c0 k) (up.1.c0 k) (by rw [div_one]; exact m0)
    simpa using this
  · have := row_cn c.M.BDD c.M.ADD c.nu c.dt 1 (c.G.Ksq k) hnu hdt one_ne_zero ((force c (ab2 c (c.conv s.U) s.H1)).c1 k)
      ((Complex.I * c.G.K1 k) • c.M.BDP (up.2 k)) (s.U.c1 k) (up.1.c1 k) (by rw [div_one, m1]; simp only [force, smul_sub]; abel)
    simpa using this
  · have := row_cn c.M.BDD c.M.ADD c.nu c.dt 1 (c.G.Ksq k) hnu hdt one_ne_zero ((force c (ab2 c (c.conv s.U) s.H1)).c2 k)
      ((Complex.I * c.G.K2 k) • c.M.BDP (up.2 k)) (s.U.c2 k) (up.1.c2 k) (by rw [div_one]; exact m2)
    simpa using this

/-- C67 along a whole run of Coupled with any `update` callback: step `n` solves the momentum equations with the pressure stored after the
step, is incompressible, and the older convection is the one of the step before (the initial `H_hat1` at the first). -/
theorem C67_run (c : Ctx κ D P R) (hnu : c.nu ≠ 0) (hdt : c.dt ≠ 0) (hinj : ∀ u, rest (c.M.CPD u) = 0 → u = 0)
    (h1 : c.G.K1 c.G.zero = 0) (h2 : c.G.K2 c.G.zero = 0) (solve : Vec κ D → Vel κ D × (κ → P))
    (hs : Solves c (2 / c.nu / c.dt) (2 / c.nu) rest pin0 pin1 solve) (upd : Vel κ D → Vel κ D) (s0 : St κ D P) (n : ℕ) :
    let s := fun n => (tick c solve upd)^[n] s0
    let Nold := fun n => match n with
      | 0 => s0.H1
      | m + 1 => c.conv (s m).U
    ∃ U', (s (n + 1)).U = upd U' ∧ Momentum c c.dt (force c (ab2 c (c.conv (s n).U) (Nold n))) (s (n + 1)).pr (s n).U U' ∧
      Incompressible c U' := by
  intro s Nold
  have hsn : ∀ n, s (n + 1) = tick c solve upd (s n) := fun n => Function.iterate_succ_apply' _ _ _
  have hH : ∀ n, (s n).H1 = Nold n := by
    intro n
    cases n with
    | zero => rfl
    | succ n => rw [hsn]; rfl
  refine ⟨(integrate c solve (s n)).U, by rw [hsn]; rfl, ?_⟩
  have h := C67_step c hnu hdt hinj h1 h2 solve hs (s n)
  rw [hH] at h
  rw [hsn]
  exact h

omit [DecidableEq κ] in
/-- C67, what `get_divergence` reports: zero for every incompressible field. `T` expresses the test functions of the Dirichlet space by those
of the pressure space (`φ_j = T_j - T_{j+2}`). -/
theorem C67_divergence (c : Ctx κ D P R) (CDD : D →ₗ[ℂ] D) (T : R →ₗ[ℂ] D) (hC : ∀ u, CDD u = T (c.M.CPD u))
    (hB : ∀ u, c.M.BDD u = T (c.M.BPD u)) (solveBDD : D → D) (hsolve : ∀ b, c.M.BDD (solveBDD b) = b)
    (hinj : ∀ u, c.M.BDD u = 0 → u = 0) (U : Vel κ D) (hU : Incompressible c U) (k : κ) :
    divergenceHat c.G CDD c.M.BDD solveBDD c.mask U k = 0 := by
  have h : CDD (U.c0 k) + (Complex.I * c.G.K1 k) • c.M.BDD (U.c1 k) + (Complex.I * c.G.K2 k) • c.M.BDD (U.c2 k) = 0 := by
    have h := congrArg T (hU k)
    simpa only [map_add, map_smul, map_zero, ← hC, ← hB] using h
  have h0 : solveBDD 0 = 0 := hinj _ (hsolve 0)
  unfold divergenceHat
  rw [h, h0]
  cases c.mask <;> simp

/-! ## The rows kept at the mean -/

section MeanRows

open Polynomial Polynomial.Chebyshev Spec.Cheb

/-- The hypothesis `hinj` of the theorems of this file, for the spaces of the code: a function of the Dirichlet space whose derivative is
orthogonal to `T_1, …, T_{N-2}`, the continuity rows which the constraints leave at the mean, vanishes. -/
theorem C67_mean_rows (N : ℕ) (hN : 3 ≤ N) (v : ℕ → ℂ)
    (h : ∀ i, 0 < i → i < N - 1 → weighted (derivative (dirichlet N v) * T ℂ (i : ℤ)) = 0) (j : ℕ) (hj : j < N - 2) : v j = 0 := by
  have hd : derivative (dirichlet N v) = series N (LUsolve.dcoef N v) := LUsolve.derivative_dirichlet N (by omega) v
  have hpi : (Real.pi / 2 : ℂ) ≠ 0 := by simp [Real.pi_ne_zero]
  -- from the highest coefficient downwards
  have key : ∀ m j, j < N - 2 → N - 2 ≤ j + m + 1 → v j = 0 := by
    intro m
    induction m with
    | zero =>
      intro j hj hm
      have h1 := h (j + 1) (by omega) (by omega)
      rw [hd, LUsolve.weighted_series N _ (j + 1) (by omega) (by omega)] at h1
      have h1 := (mul_eq_zero.1 h1).resolve_left hpi
      have ht : LUsolve.tail N v (j + 1 + 1) = 0 := by
        refine Finset.sum_eq_zero fun i hi => ?_
        have := Finset.mem_range.1 hi
        rw [if_neg (by omega)]
      rw [LUsolve.dcoef, if_neg (by omega), ht, LUsolve.ext, if_pos (by omega)] at h1
      have hne : (j : ℂ) + 1 + 1 ≠ 0 := by exact_mod_cast Nat.succ_ne_zero (j + 1)
      simpa [hne] using h1
    | succ m ih =>
      intro j hj hm
      by_cases hjm : N - 2 ≤ j + m + 1
      · exact ih j hj hjm
      have h1 := h (j + 1) (by omega) (by omega)
      rw [hd, LUsolve.weighted_series N _ (j + 1) (by omega) (by omega)] at h1
      have h1 := (mul_eq_zero.1 h1).resolve_left hpi
      have ht : LUsolve.tail N v (j + 1 + 1) = 0 := by
        refine Finset.sum_eq_zero fun i hi => ?_
        have := Finset.mem_range.1 hi
        split_ifs with hc
        · exact ih i this (by omega)
        · rfl
      rw [LUsolve.dcoef, if_neg (by omega), ht, LUsolve.ext, if_pos (by omega)] at h1
      have hne : (j : ℂ) + 1 + 1 ≠ 0 := by exact_mod_cast Nat.succ_ne_zero (j + 1)
      simpa [hne] using h1
  exact key N j hj (by omega)

end MeanRows

/-! ## CoupledRK3 -/

/-- Masked weak force of a velocity field. -/
noncomputable def forceOf (c : Ctx κ D P R) (U : Vel κ D) : Vec κ D := force c (maskVec c.mask (c.conv U))

/-- `x F + y G`. -/
noncomputable def comb (x y : ℝ) (F G : Vec κ D) : Vec κ D :=
  ⟨fun k => (x : ℂ) • F.c0 k + (y : ℂ) • G.c0 k, fun k => (x : ℂ) • F.c1 k + (y : ℂ) • G.c1 k,
   fun k => (x : ℂ) • F.c2 k + (y : ℂ) • G.c2 k⟩

omit [DecidableEq κ] in
theorem substep_eq (c : Ctx κ D P R) (hnu : c.nu ≠ 0) (hdt : c.dt ≠ 0) (solve : Fin 3 → Vec κ D → Vel κ D × (κ → P)) (rk : Fin 3) (g : ℝ)
    (hg0 : g ≠ 0) (hg : Channel.rkA rk + Channel.rkB rk = g)
    (hs : Solves c (2 / c.nu / c.dt / g) (2 / c.nu / g) rest pin0 pin1 (solve rk)) (s : St3 κ D P) :
    Momentum c (g * c.dt) (comb (Channel.rkA rk / g) (Channel.rkB rk / g) (forceOf c s.U) s.hv0)
      (fun k => ((1 / g : ℝ) : ℂ) • (substep c solve rk s).pr k) s.U (substep c solve rk s).U ∧
    (substep c solve rk s).hv0 = forceOf c s.U := by
  refine ⟨fun k => ?_, rfl⟩
  have m0 := hs.mom0 (computeRHS3 c rk s).2 k
  have m1 := hs.mom1 (computeRHS3 c rk s).2 k
  have m2 := hs.mom2 (computeRHS3 c rk s).2 k
  change Solves c _ _ rest pin0 pin1 (solve rk) at hs
  have hU : (substep c solve rk s).U = (solve rk (computeRHS3 c rk s).2).1 := rfl
  have hP : (substep c solve rk s).pr = (solve rk (computeRHS3 c rk s).2).2 := rfl
  rw [hU, hP]
  generalize solve rk (computeRHS3 c rk s).2 = up at m0 m1 m2 ⊢
  simp only [computeRHS3, abMatvec, hg] at m0 m1 m2
  have hd : (2 / c.nu / (g * c.dt) : ℝ) = 2 / c.nu / c.dt / g := by field_simp
  have hgd : g * c.dt ≠ 0 := mul_ne_zero hg0 hdt
  have hg' : (g : ℂ) ≠ 0 := by exact_mod_cast hg0
  refine ⟨?_, ?_, ?_⟩
  · have := row_cn c.M.BDD c.M.ADD c.nu (g * c.dt) g (c.G.Ksq k) hnu hgd hg0
      ((comb (Channel.rkA rk / g) (Channel.rkB rk / g) (forceOf c s.U) s.hv0).c0 k) (c.M.CDP (up.2 k)) (s.U.c0 k) (up.1.c0 k)
      (by
        rw [hd, m0]
        simp only [comb, forceOf, force]
        congr 1
        push_cast
        module)
    simpa using this
  · have := row_cn c.M.BDD c.M.ADD c.nu (g * c.dt) g (c.G.Ksq k) hnu hgd hg0
      ((comb (Channel.rkA rk / g) (Channel.rkB rk / g) (forceOf c s.U) s.hv0).c1 k) ((Complex.I * c.G.K1 k) • c.M.BDP (up.2 k))
      (s.U.c1 k) (up.1.c1 k)
      (by
        rw [hd, m1]
        simp only [comb, forceOf, force]
        congr 1
        push_cast
        module)
    rw [smul_comm] at this
    simpa using this
  · have := row_cn c.M.BDD c.M.ADD c.nu (g * c.dt) g (c.G.Ksq k) hnu hgd hg0
      ((comb (Channel.rkA rk / g) (Channel.rkB rk / g) (forceOf c s.U) s.hv0).c2 k) ((Complex.I * c.G.K2 k) • c.M.BDP (up.2 k))
      (s.U.c2 k) (up.1.c2 k)
      (by
        rw [hd, m2]
        simp only [comb, forceOf, force]
        congr 1
        push_cast
        module)
    rw [smul_comm] at this
    simpa using this

/-- The sizes of the three substeps. -/
noncomputable def rkG : Fin 3 → ℝ := ![8 / 15, 2 / 15, 1 / 3]

/-- C67 for CoupledRK3: a step is three substeps of `8/15`, `2/15` and `1/3` of the step with some pressures `p1`, `p2`, `p3`, all fields
incompressible; nothing depends on the previous step. The last pressure is three times the stored one. -/
theorem C67_rk3 (c : Ctx κ D P R) (hnu : c.nu ≠ 0) (hdt : c.dt ≠ 0) (hinj : ∀ u, rest (c.M.CPD u) = 0 → u = 0)
    (h1 : c.G.K1 c.G.zero = 0) (h2 : c.G.K2 c.G.zero = 0) (solve : Fin 3 → Vec κ D → Vel κ D × (κ → P))
    (hs : ∀ rk, Solves c (2 / c.nu / c.dt / rkG rk) (2 / c.nu / rkG rk) rest pin0 pin1 (solve rk)) (s : St3 κ D P) :
    ∃ (U1 U2 : Vel κ D) (p1 p2 p3 : κ → P),
      Momentum c (8 / 15 * c.dt) (forceOf c s.U) p1 s.U U1 ∧ Incompressible c U1 ∧
      Momentum c (2 / 15 * c.dt) (comb (25 / 8) (-17 / 8) (forceOf c U1) (forceOf c s.U)) p2 U1 U2 ∧ Incompressible c U2 ∧
      Momentum c (1 / 3 * c.dt) (comb (9 / 4) (-5 / 4) (forceOf c U2) (forceOf c U1)) p3 U2 (integrate3 c solve s).U ∧
      Incompressible c (integrate3 c solve s).U ∧ p3 = fun k => (3 : ℂ) • (integrate3 c solve s).pr k := by
  set s1 := substep c solve 0 s with e1
  set s2 := substep c solve 1 s1 with e2
  have hβ : ∀ rk, 2 / c.nu / rkG rk ≠ 0 := by
    intro rk
    fin_cases rk <;> simp [rkG, hnu]
  have inc : ∀ rk (t : St3 κ D P), Incompressible c (substep c solve rk t).U := fun rk t =>
    solve_incompressible (hs rk) (hβ rk) hinj h1 h2 _
  have q0 := substep_eq c hnu hdt solve 0 (8 / 15) (by norm_num) (by norm_num [Channel.rkA, Channel.rkB]) (hs 0) s
  have q1 := substep_eq c hnu hdt solve 1 (2 / 15) (by norm_num) (by norm_num [Channel.rkA, Channel.rkB]) (hs 1) s1
  have q2 := substep_eq c hnu hdt solve 2 (1 / 3) (by norm_num) (by show (3 / 4 + -5 / 12 : ℝ) = _; norm_num) (hs 2) s2
  rw [q0.2] at q1
  rw [q1.2] at q2
  refine ⟨s1.U, s2.U, fun k => ((1 / (8 / 15) : ℝ) : ℂ) • s1.pr k, fun k => ((1 / (2 / 15) : ℝ) : ℂ) • s2.pr k, _, ?_, inc 0 s, ?_, inc 1 s1, ?_, inc 2 s2, rfl⟩
  · have := q0.1
    have e : comb (Channel.rkA 0 / (8 / 15)) (Channel.rkB 0 / (8 / 15)) (forceOf c s.U) s.hv0 = forceOf c s.U := by
      have e1 : Channel.rkA 0 / (8 / 15) = 1 ∧ Channel.rkB 0 / (8 / 15) = 0 := by norm_num [Channel.rkA, Channel.rkB]
      rw [e1.1, e1.2]
      simp [comb]
    rwa [e] at this
  · have := q1.1
    have e : Channel.rkA 1 / (2 / 15) = 25 / 8 ∧ Channel.rkB 1 / (2 / 15) = -17 / 8 := by norm_num [Channel.rkA, Channel.rkB]
    rwa [e.1, e.2] at this
  · have := q2.1
    have e : Channel.rkA 2 / (1 / 3) = 9 / 4 ∧ Channel.rkB 2 / (1 / 3) = -5 / 4 := by
      show (3 / 4 / (1 / 3) : ℝ) = _ ∧ (-5 / 12 / (1 / 3) : ℝ) = _; norm_num
    rw [e.1, e.2] at this
    have e' : ((1 / (1 / 3) : ℝ) : ℂ) = 3 := by norm_num
    rw [e'] at this
    exact this

/-! ## C68 -/

omit [DecidableEq κ] in
/-- The curl of two Crank-Nicolson steps whose forces contain a pressure gradient: the pressure drops out. -/
theorem curl_cn {V : Type*} [AddCommGroup V] [Module ℂ V] (M L : V →ₗ[ℂ] V) (nu δ k1 k2 : ℝ) (F1 F2 q v w v' w' : V)
    (h1 : CrankNicolson M L nu δ (F1 - (Complex.I * k1) • q) v v') (h2 : CrankNicolson M L nu δ (F2 - (Complex.I * k2) • q) w w') :
    CrankNicolson M L nu δ (curl k1 k2 F1 F2) (curl k1 k2 v w) (curl k1 k2 v' w') := by
  simp only [CrankNicolson, curl, map_sub, map_smul] at *
  rw [← sub_eq_zero] at h1 h2 ⊢
  have h := congrArg₂ (fun x y => (Complex.I * k1) • y - (Complex.I * k2) • x) h1 h2
  simp only [smul_zero, sub_zero] at h
  rw [← h]
  module

/-- C68 for one step of Coupled: the wall-normal vorticity obeys the vorticity equation which KMM solves (`C34_step`), forced by the same
convection, and the mean flow obeys the mean flow equations of KMM; the pressure drops out of both. -/
theorem C68_step (c : Ctx κ D P R) (hnu : c.nu ≠ 0) (hdt : c.dt ≠ 0) (hinj : ∀ u, rest (c.M.CPD u) = 0 → u = 0)
    (h1 : c.G.K1 c.G.zero = 0) (h2 : c.G.K2 c.G.zero = 0) (hSk : ∀ k, k ≠ c.G.zero → c.Sk1 k = 0)
    (solve : Vec κ D → Vel κ D × (κ → P)) (hs : Solves c (2 / c.nu / c.dt) (2 / c.nu) rest pin0 pin1 solve) (s : St κ D P) :
    let U' := (integrate c solve s).U
    let H := ab2 c (c.conv s.U) s.H1
    (∀ k, CrankNicolson c.M.BDD (lap c.M.BDD c.M.ADD (c.G.Ksq k)) c.nu c.dt (forceG c.M.BDD (c.G.K1 k) (c.G.K2 k) (H.c1 k) (H.c2 k))
      (curl (c.G.K1 k) (c.G.K2 k) (s.U.c1 k) (s.U.c2 k)) (curl (c.G.K1 k) (c.G.K2 k) (U'.c1 k) (U'.c2 k))) ∧
    CrankNicolson c.M.BDD c.M.ADD c.nu c.dt (c.M.BDD (H.c1 c.G.zero) - c.Sk1 c.G.zero) (s.U.c1 c.G.zero) (U'.c1 c.G.zero) ∧
    CrankNicolson c.M.BDD c.M.ADD c.nu c.dt (c.M.BDD (H.c2 c.G.zero)) (s.U.c2 c.G.zero) (U'.c2 c.G.zero) := by
  intro U' H
  obtain ⟨hm, -⟩ := C67_step c hnu hdt hinj h1 h2 solve hs s
  have hK : c.G.Ksq c.G.zero = 0 := by simp [Grid.Ksq, h1, h2]
  have hlap : lap c.M.BDD c.M.ADD 0 = c.M.ADD := by
    ext v
    simp [lap]
  refine ⟨fun k => ?_, ?_, ?_⟩
  · have h := curl_cn _ _ _ _ _ _ _ _ _ _ _ _ _ (hm k).2.1 (hm k).2.2
    have e : curl (c.G.K1 k) (c.G.K2 k) ((force c H).c1 k) ((force c H).c2 k) = forceG c.M.BDD (c.G.K1 k) (c.G.K2 k) (H.c1 k) (H.c2 k) := by
      by_cases hk : k = c.G.zero
      · simp [hk, curl, forceG, h1, h2]
      · simp [curl, forceG, force, hSk k hk]
    rwa [e] at h
  · have h := (hm c.G.zero).2.1
    rw [hK, hlap, h1] at h
    simpa [force] using h
  · have h := (hm c.G.zero).2.2
    rw [hK, hlap, h2] at h
    simpa [force] using h

/-- Crank-Nicolson steps are unique when the Helmholtz operator is injective. -/
theorem cn_unique {V : Type*} [AddCommGroup V] [Module ℂ V] {M L : V →ₗ[ℂ] V} {nu δ : ℝ}
    (hinj : ∀ x, M x - ((nu * δ / 2 : ℝ) : ℂ) • L x = 0 → x = 0) {F x x1 x2 : V} (h1 : CrankNicolson M L nu δ F x x1)
    (h2 : CrankNicolson M L nu δ F x x2) : x1 = x2 := by
  rw [← sub_eq_zero]
  apply hinj
  simp only [CrankNicolson] at h1 h2
  rw [map_sub, map_sub, ← sub_eq_zero.2 (h1.trans h2.symm)]
  module

/-- C68 along whole runs, beside KMM: while the convections of the two solvers agree in their wall-parallel components, Coupled has the
wall-normal vorticity and the mean flow of KMM. -/
theorem C68_run {B : Type*} [AddCommGroup B] [Module ℂ B] (c : Ctx κ D P R) (d : Channel.Ctx κ B D) (la : Channel.LA κ B D)
    (hnu : c.nu ≠ 0) (hdt : c.dt ≠ 0) (hinj : ∀ u, rest (c.M.CPD u) = 0 → u = 0)
    (h1 : c.G.K1 c.G.zero = 0) (h2 : c.G.K2 c.G.zero = 0) (hSk : ∀ k, k ≠ c.G.zero → c.Sk1 k = 0)
    (solve : Vec κ D → Vel κ D × (κ → P)) (hs : Solves c (2 / c.nu / c.dt) (2 / c.nu) rest pin0 pin1 solve)
    (hla : la.Solves d.nu d.dt d.G d.M) (enu : d.nu = c.nu) (edt : d.dt = c.dt) (eG : d.G = c.G) (eA : d.M.ADD = c.M.ADD)
    (eB : d.M.BDD = c.M.BDD) (eA0 : d.M.ADD0 = c.M.ADD) (eB0 : d.M.BDD0 = c.M.BDD) (eX1 : c.G.X1 = c.G.K1) (eX2 : c.G.X2 = c.G.K2)
    (em : d.mask = c.mask) (eS : d.Sk = c.Sk1 c.G.zero)
    (hH : ∀ k x, c.M.BDD x - ((c.nu * c.dt / 2 : ℝ) : ℂ) • lap c.M.BDD c.M.ADD (c.G.Ksq k) x = 0 → x = 0)
    (s0 : St κ D P) (t0 : Channel.St κ B D) (ht0 : t0.U0 = t0.U) (hg : ∀ k, curl (c.G.K1 k) (c.G.K2 k) (s0.U.c1 k) (s0.U.c2 k) = t0.g k)
    (hv : s0.U.c1 c.G.zero = t0.U.v c.G.zero) (hw : s0.U.c2 c.G.zero = t0.U.w c.G.zero)
    (hH1 : s0.H1.c1 = t0.H1.c1 ∧ s0.H1.c2 = t0.H1.c2) (n : ℕ)
    (hconv : ∀ m < n, (c.conv ((tick c solve id)^[m] s0).U).c1 = (d.conv ((Channel.tick d la id)^[m] t0).U ((Channel.tick d la id)^[m] t0).g).c1 ∧
      (c.conv ((tick c solve id)^[m] s0).U).c2 = (d.conv ((Channel.tick d la id)^[m] t0).U ((Channel.tick d la id)^[m] t0).g).c2) :
    let s := (tick c solve id)^[n] s0
    let t := (Channel.tick d la id)^[n] t0
    (∀ k, curl (c.G.K1 k) (c.G.K2 k) (s.U.c1 k) (s.U.c2 k) = t.g k) ∧ s.U.c1 c.G.zero = t.U.v c.G.zero ∧
      s.U.c2 c.G.zero = t.U.w c.G.zero := by
  have key : ∀ m ≤ n, let s := (tick c solve id)^[m] s0
      let t := (Channel.tick d la id)^[m] t0
      ((∀ k, curl (c.G.K1 k) (c.G.K2 k) (s.U.c1 k) (s.U.c2 k) = t.g k) ∧ s.U.c1 c.G.zero = t.U.v c.G.zero ∧
      s.U.c2 c.G.zero = t.U.w c.G.zero) ∧ (s.H1.c1 = t.H1.c1 ∧ s.H1.c2 = t.H1.c2) ∧ t.U0 = t.U := by
    intro m
    induction m with
    | zero => exact fun _ => ⟨⟨hg, hv, hw⟩, hH1, ht0⟩
    | succ m ih =>
      intro hm
      have hc := hconv m hm
      have ih := ih (by omega)
      simp only [Function.iterate_succ_apply'] at ih ⊢
      generalize (tick c solve id)^[m] s0 = s at ih hc ⊢
      generalize (Channel.tick d la id)^[m] t0 = t at ih hc ⊢
      obtain ⟨⟨ig, iv, iw⟩, ⟨i1, i2⟩, i0⟩ := ih
      have a := C68_step c hnu hdt hinj h1 h2 hSk solve hs s
      have b := Channel.C34_step d la (by rw [enu]; exact hnu) (by rw [edt]; exact hdt) hla t
      simp only [Channel.StepEq, enu, edt, eG, eA, eB, eA0, eB0, eX1, eX2, em, eS, i0] at b
      simp only [ab2, hc.1, hc.2, i1, i2, iv, iw] at a
      obtain ⟨a1, a2, a3⟩ := a
      obtain ⟨-, b1, b2, b3⟩ := b
      have hK : c.G.Ksq c.G.zero = 0 := by simp [Grid.Ksq, h1, h2]
      have hlap : lap c.M.BDD c.M.ADD 0 = c.M.ADD := by
        ext v
        simp [lap]
      have hH0 := hH c.G.zero
      rw [hK, hlap] at hH0
      refine ⟨⟨fun k => ?_, ?_, ?_⟩, ?_, rfl⟩
      · have a := a1 k
        rw [ig k] at a
        exact cn_unique (hH k) a (b1 k)
      · exact cn_unique hH0 a2 b2
      · exact cn_unique hH0 a3 b3
      · exact ⟨hc.1, hc.2⟩
  exact (key n le_rfl).1

/-! ## C69 -/

/-- Two pressures have the same (weak) gradient. -/
def SameGradient (c : Ctx κ D P R) (p q : κ → P) : Prop :=
  ∀ k, c.M.CDP (p k) = c.M.CDP (q k) ∧ (Complex.I * c.G.K1 k) • c.M.BDP (p k) = (Complex.I * c.G.K1 k) • c.M.BDP (q k) ∧
    (Complex.I * c.G.K2 k) • c.M.BDP (p k) = (Complex.I * c.G.K2 k) • c.M.BDP (q k)

omit [DecidableEq κ] in
/-- The momentum equations determine the pressure gradient. -/
theorem pressure_unique {c : Ctx κ D P R} {δ : ℝ} (hδ : δ ≠ 0) {F : Vec κ D} {q : κ → P} {U U' : Vel κ D} (hm : Momentum c δ F q U U')
    (p : κ → P) : Momentum c δ F p U U' ↔ SameGradient c p q := by
  have hδ' : (δ : ℂ) ≠ 0 := by exact_mod_cast hδ
  have key : ∀ (M L : D →ₗ[ℂ] D) (F q q' x x' : D), CrankNicolson M L c.nu δ (F - q') x x' →
      (CrankNicolson M L c.nu δ (F - q) x x' ↔ q = q') := by
    intro M L F q q' x x' h
    simp only [CrankNicolson] at h ⊢
    rw [h]
    constructor
    · intro e
      have e := add_left_cancel e
      have e := smul_right_injective D hδ' e
      exact (sub_right_injective e).symm
    · rintro rfl
      rfl
  constructor
  · intro h k
    exact ⟨(key _ _ _ _ _ _ _ (hm k).1).1 (h k).1, (key _ _ _ _ _ _ _ (hm k).2.1).1 (h k).2.1, (key _ _ _ _ _ _ _ (hm k).2.2).1 (h k).2.2⟩
  · intro h k
    exact ⟨(key _ _ _ _ _ _ _ (hm k).1).2 (h k).1, (key _ _ _ _ _ _ _ (hm k).2.1).2 (h k).2.1, (key _ _ _ _ _ _ _ (hm k).2.2).2 (h k).2.2⟩

/-- C69 for Coupled: the stored pressure is the pressure of the momentum equations of the step (`C67_run`) and any two pressures which do
this have the same gradient; so the stored one is determined by the velocities before and after the step. -/
theorem C69_coupled (c : Ctx κ D P R) (hnu : c.nu ≠ 0) (hdt : c.dt ≠ 0) (hinj : ∀ u, rest (c.M.CPD u) = 0 → u = 0)
    (h1 : c.G.K1 c.G.zero = 0) (h2 : c.G.K2 c.G.zero = 0) (solve : Vec κ D → Vel κ D × (κ → P))
    (hs : Solves c (2 / c.nu / c.dt) (2 / c.nu) rest pin0 pin1 solve) (s : St κ D P) (p : κ → P) :
    Momentum c c.dt (force c (ab2 c (c.conv s.U) s.H1)) p s.U (integrate c solve s).U ↔
      SameGradient c p (integrate c solve s).pr := by
  have hm := (C67_step c hnu hdt hinj h1 h2 solve hs s).1
  exact pressure_unique hdt hm p

/-- C69 for CoupledRK3: the pressures of the last substep are those with three times the gradient of the stored one. Missing: the stored
one is not among them, see `C69_rk3_false`. -/
theorem C69_rk3_partial (c : Ctx κ D P R) (hnu : c.nu ≠ 0) (hdt : c.dt ≠ 0) (solve : Fin 3 → Vec κ D → Vel κ D × (κ → P))
    (hs : ∀ rk, Solves c (2 / c.nu / c.dt / rkG rk) (2 / c.nu / rkG rk) rest pin0 pin1 (solve rk)) (s : St3 κ D P) (p : κ → P) :
    let s1 := substep c solve 0 s
    let s2 := substep c solve 1 s1
    Momentum c (1 / 3 * c.dt) (comb (9 / 4) (-5 / 4) (forceOf c s2.U) (forceOf c s1.U)) p s2.U (integrate3 c solve s).U ↔
      SameGradient c p (fun k => (3 : ℂ) • (integrate3 c solve s).pr k) := by
  intro s1 s2
  have q2 := substep_eq c hnu hdt solve 2 (1 / 3) (by norm_num) (by show (3 / 4 + -5 / 12 : ℝ) = _; norm_num) (hs 2) s2
  have e : Channel.rkA 2 / (1 / 3) = 9 / 4 ∧ Channel.rkB 2 / (1 / 3) = -5 / 4 := by
    show (3 / 4 / (1 / 3) : ℝ) = _ ∧ (-5 / 12 / (1 / 3) : ℝ) = _; norm_num
  have e' : ((1 / (1 / 3) : ℝ) : ℂ) = 3 := by norm_num
  have hm := q2.1
  rw [e.1, e.2, e'] at hm
  exact pressure_unique (mul_ne_zero (by norm_num) hdt) hm p

/-! ## A concrete case -/

/-- Two wavenumber pairs, one mode in the wall-normal direction, constant convection along the first periodic direction. -/
noncomputable def demo : Ctx Bool ℂ ℂ ℂ where
  nu := 1
  dt := 1
  G := ⟨fun k => if k then 1 else 0, fun _ => 0, fun k => if k then 1 else 0, fun _ => 0, false⟩
  M := ⟨-LinearMap.id, LinearMap.id, LinearMap.id, LinearMap.id, -LinearMap.id, LinearMap.id⟩
  mask := none
  conv _ := ⟨fun _ => 0, fun _ => 1, fun _ => 0⟩
  Sk1 _ := 0

/-- Its direct solver. -/
noncomputable def demoSolve (alfa beta : ℝ) (r : Vec Bool ℂ) : Vel Bool ℂ × (Bool → ℂ) :=
  (⟨fun k => if k then (r.c0 true + Complex.I * r.c1 true) / (2 * (alfa + 2)) else 0,
    fun k => if k then -Complex.I * (r.c0 true + Complex.I * r.c1 true) / (2 * (alfa + 2)) else r.c1 false / (alfa + 1),
    fun k => if k then r.c2 true / (alfa + 2) else r.c2 false / (alfa + 1)⟩,
   fun k => if k then (r.c0 true - Complex.I * r.c1 true) / 2 / beta else r.c0 false / beta)

theorem demo_solves (alfa beta : ℝ) (ha : 0 ≤ alfa) (hb : beta ≠ 0) :
    Solves demo alfa beta (R' := ℂ) LinearMap.id (0 : ℂ →ₗ[ℂ] ℂ) 0 (demoSolve alfa beta) := by
  have h1 : (alfa : ℂ) + 1 ≠ 0 := by
    have : ((alfa + 1 : ℝ) : ℂ) ≠ 0 := by exact_mod_cast (by linarith : alfa + 1 ≠ 0)
    push_cast at this
    exact this
  have h2 : (alfa : ℂ) + 2 ≠ 0 := by
    have : ((alfa + 2 : ℝ) : ℂ) ≠ 0 := by exact_mod_cast (by linarith : alfa + 2 ≠ 0)
    push_cast at this
    exact this
  have hb' : (beta : ℂ) ≠ 0 := by exact_mod_cast hb
  have hI : Complex.I ^ 2 = -1 := Complex.I_sq
  have hI3 : Complex.I ^ 3 = -Complex.I := by rw [pow_succ, hI]; ring
  constructor
  · intro r k
    cases k <;> simp [demo, demoSolve, Grid.Ksq] <;> field_simp <;> ring
  · intro r k
    cases k <;> simp [demo, demoSolve, Grid.Ksq] <;> field_simp <;> ring_nf <;> simp only [hI] <;> ring
  · intro r k
    cases k <;> simp [demo, demoSolve, Grid.Ksq] <;> field_simp <;> ring
  · intro r k hk
    cases k
    · exact absurd rfl hk
    · simp [demo, demoSolve]
      right
      field_simp
      ring_nf
      simp only [hI, hI3]
      ring
  · intro r
    simp [demo, demoSolve]
  · intro r
    rfl
  · intro r
    rfl

example (s0 : St Bool ℂ ℂ) (n : ℕ) :=
  C67_run demo (by norm_num [demo]) (by norm_num [demo]) (rest := LinearMap.id) (by simp [demo]) rfl rfl (demoSolve 2 2)
    (by have h := demo_solves 2 2 (by norm_num) (by norm_num); simpa [demo] using h) id s0 n

theorem demo_solves3 (rk : Fin 3) : Solves demo (2 / demo.nu / demo.dt / rkG rk) (2 / demo.nu / rkG rk) (R' := ℂ) LinearMap.id
    (0 : ℂ →ₗ[ℂ] ℂ) 0 (demoSolve (2 / demo.nu / demo.dt / rkG rk) (2 / demo.nu / rkG rk)) := by
  have h : 0 < rkG rk := by fin_cases rk <;> norm_num [rkG]
  apply demo_solves
  · simp only [demo]; positivity
  · simp only [demo]; positivity

example (s : St3 Bool ℂ ℂ) :=
  C67_rk3 demo (by norm_num [demo]) (by norm_num [demo]) (rest := LinearMap.id) (by simp [demo]) rfl rfl
    (fun rk => demoSolve (2 / demo.nu / demo.dt / rkG rk) (2 / demo.nu / rkG rk)) demo_solves3 s

example (U : Vel Bool ℂ) (hU : Incompressible demo U) (k : Bool) :=
  C67_divergence demo (-LinearMap.id) LinearMap.id (by simp [demo]) (by simp [demo]) id (by simp [demo]) (by simp [demo]) U hU k

/-- KMM beside it. -/
noncomputable def demoKMM : Channel.Ctx Bool ℂ ℂ where
  nu := 1
  dt := 1
  G := demo.G
  M := ⟨0, LinearMap.id, 0, 0, -LinearMap.id, LinearMap.id, 0, 0, -LinearMap.id, LinearMap.id⟩
  mask := none
  conv _ _ := ⟨fun _ => 0, fun _ => 1, fun _ => 0⟩
  Sk := 0

noncomputable def demoKMMLA : Channel.LA Bool ℂ ℂ where
  helmholtzG k b := b / (if k then 4 else 3)
  biharmonicU k b := b / (if k then 2 else 1)
  helmholtzU0 b := b / 3
  tdmaD b := b

theorem demoKMM_solves : demoKMMLA.Solves demoKMM.nu demoKMM.dt demoKMM.G demoKMM.M := by
  constructor
  · intro k b
    cases k <;> simp [demoKMM, demoKMMLA, demo, Grid.Ksq] <;> ring
  · intro k b
    cases k <;> simp [demoKMM, demoKMMLA, demo, Grid.Ksq, Grid.K4] <;> ring
  · intro b
    simp [demoKMM, demoKMMLA]
    ring
  · intro b
    simp [demoKMM, demoKMMLA]

example (s0 : St Bool ℂ ℂ) (n : ℕ) :=
  C68_run demo demoKMM demoKMMLA (by norm_num [demo]) (by norm_num [demo]) (rest := LinearMap.id) (by simp [demo]) rfl rfl (fun _ _ => rfl)
    (demoSolve 2 2) (by have h := demo_solves 2 2 (by norm_num) (by norm_num); simpa [demo] using h) demoKMM_solves rfl rfl rfl rfl rfl rfl
    rfl rfl rfl rfl rfl
    (by intro k x h; cases k <;> simp [demo, lap, Grid.Ksq] at h <;> ring_nf at h <;> simpa using h) s0
    ⟨⟨fun _ => 0, s0.U.c1, s0.U.c2⟩, fun k => curl (demo.G.K1 k) (demo.G.K2 k) (s0.U.c1 k) (s0.U.c2 k), s0.H, s0.H0, s0.H1,
      ⟨fun _ => 0, s0.U.c1, s0.U.c2⟩⟩ rfl (fun _ => rfl) rfl rfl ⟨rfl, rfl⟩ n (fun _ _ => ⟨rfl, rfl⟩)

/-- C69 is false for CoupledRK3: after any step of the concrete case, from any context, the stored pressure does not satisfy the momentum
equations of the last substep. -/
theorem C69_rk3_false (s : St3 Bool ℂ ℂ) :
    let solve := fun rk => demoSolve (2 / demo.nu / demo.dt / rkG rk) (2 / demo.nu / rkG rk)
    let s1 := substep demo solve 0 s
    let s2 := substep demo solve 1 s1
    ¬ Momentum demo (1 / 3 * demo.dt) (comb (9 / 4) (-5 / 4) (forceOf demo s2.U) (forceOf demo s1.U)) (integrate3 demo solve s).pr s2.U
      (integrate3 demo solve s).U := by
  intro solve s1 s2 h
  have h := (C69_rk3_partial demo (by norm_num [demo]) (by norm_num [demo]) solve demo_solves3 s _).1 h
  have h := (h true).1
  have hp : (integrate3 demo solve s).pr true = (1 / 3 : ℂ) * ((integrate3 demo solve s).pr true * 3) := by ring
  simp only [demo, LinearMap.id_apply, smul_eq_mul] at h
  have h0 : (integrate3 demo solve s).pr true = 0 := by
    have : (2 : ℂ) * (integrate3 demo solve s).pr true = 0 := by
      simp only [demo]
      linear_combination -h
    simpa using this
  have hu : s2.U.c0 true = Complex.I * s2.U.c1 true := by
    simp only [s2, substep, solve, demoSolve, if_true]
    rw [show ∀ a b : ℂ, Complex.I * (-Complex.I * a / b) = -(Complex.I ^ 2) * a / b by intros; ring, Complex.I_sq]
    ring
  have hv1 : s2.hv0.c1 true = 1 ∧ s2.hv0.c0 true = 0 := by
    simp [s2, substep, computeRHS3, demo, maskVec]
  have e : (integrate3 demo solve s).pr true = -(Complex.I / 6) := by
    change (substep demo solve 2 s2).pr true = _
    have e1 : Channel.rkA 2 = 3 / 4 := rfl
    have e2 : Channel.rkB 2 = -5 / 12 := rfl
    have e3 : rkG 2 = 1 / 3 := rfl
    simp only [substep, solve, demoSolve, if_true, computeRHS3, abMatvec, e1, e2, e3, hv1, hu]
    simp [demo, maskVec, Grid.Ksq]
    ring
  rw [e] at h0
  simp at h0

end SpectralDNS.Coupled

import Verif.Props.SolveChannel
import Verif.Props.ChannelConverge
import Verif.Props.RBConverge

/-!
# C101: a call of `solve` computes the flow
-/

namespace SpectralDNS.Solve

open Periodic

variable {D : Type*}

section channel

open Channel

variable {N M : Fin 2 → ℕ} {n : ℕ} {q : Quad} {L : Fin 2 → ℝ} {hN : ∀ i, 0 < N i} {c : Ctx (RModes N) (Fin n → ℂ) (Fin (n + 2) → ℂ)} {kind : ConvKind}

/-- **C101 (KMM).**  `solve` with KMM from time zero: if the equations have a solution up to a time beyond `T`, and the step is small enough, the call returns,
at a time less than one step before `T` and not after `T + 1e-12`, and the velocity it leaves and every velocity handed to the output are within `C dt²` of
the solution at the time reported, everywhere between the walls. -/
theorem C101_kmm (S : ChebCtx q n M L hN c kind) {T : ℝ} (hT : 0 ≤ T) {U : ℝ → Vel (RModes N) (Fin n → ℂ) (Fin (n + 2) → ℂ)}
    {g : ℝ → RModes N → Fin (n + 2) → ℂ} (hU : SemiDiscrete c T U g) : ∃ C H0 : ℝ, 0 < H0 ∧
    ∀ p : Params, p.t = 0 → 0 < p.dt → p.dt ≤ H0 → p.dt ≤ p.T → p.T + 1e-12 ≤ T →
    ∀ la : LA (RModes N) (Fin n → ℂ) (Fin (n + 2) → ℂ), la.Solves c.nu p.dt c.G c.M →
    ∀ s0 : Channel.St (RModes N) (Fin n → ℂ) (Fin (n + 2) → ℂ), s0.U = U 0 → s0.U0 = U 0 → s0.g = g 0 → s0.H1 = c.conv (U 0) (g 0) →
    ∀ (results store : Vel (RModes N) (Fin n → ℂ) (Fin (n + 2) → ℂ) → D) (h5 : H5 D) (fuel : ℕ), (p.T + 1e-12) / p.dt < fuel →
    ∃ st, solve (kmmSolver c la id results store) fuel p s0 h5 = .returned st ∧ p.T - p.dt < st.p.t ∧ st.p.t ≤ p.T + 1e-12 ∧
      FieldsWithin q L (C * p.dt ^ 2) st.s.U (U st.p.t) ∧ ∀ o ∈ st.outs, FieldsWithin q L (C * p.dt ^ 2) o.2.U (U o.1.t) := by
  obtain ⟨C, H0, hH0, H⟩ := C99_kmm S hT hU le_rfl
  refine ⟨C, H0, hH0, fun p ht hdt hdt' hT1 hT2 la hla s0 e1 e2 e3 e4 results store h5 fuel hf => ?_⟩
  exact channel_accurate (fun dt => Channel.integrate { c with dt := dt } la) (fun s => { s with U := id s.U }) Channel.endOfTstep (fun s => results s.U)
    [(0, fun s => store s.U), (1, fun s => store s.U0)] p ht hdt hT1 hT2 s0 h5 fuel hf (fun x t => FieldsWithin q L (C * p.dt ^ 2) x.U (U t))
    (fun _ _ h => h) (fun i hi => (H p.dt hdt hdt' la hla s0 e1 e2 e3 (fun k => by simp [e4]) i hi).2)

/-- **C101 (KMMRK3).** -/
theorem C101_kmmrk3 (S : ChebCtx q n M L hN c kind) {T : ℝ} (hT : 0 ≤ T) {U : ℝ → Vel (RModes N) (Fin n → ℂ) (Fin (n + 2) → ℂ)}
    {g : ℝ → RModes N → Fin (n + 2) → ℂ} (hU : SemiDiscrete c T U g) : ∃ C H0 : ℝ, 0 < H0 ∧
    ∀ p : Params, p.t = 0 → 0 < p.dt → p.dt ≤ H0 → p.dt ≤ p.T → p.T + 1e-12 ≤ T →
    ∀ la : Fin 3 → LA (RModes N) (Fin n → ℂ) (Fin (n + 2) → ℂ), (∀ rk, (la rk).Solves3 c.nu p.dt (rkA rk + rkB rk) c.G c.M) →
    ∀ s0 : Channel.St3 (RModes N) (Fin n → ℂ) (Fin (n + 2) → ℂ), s0.U = U 0 → s0.g = g 0 →
    ∀ (results store : Vel (RModes N) (Fin n → ℂ) (Fin (n + 2) → ℂ) → D) (h5 : H5 D) (fuel : ℕ), (p.T + 1e-12) / p.dt < fuel →
    ∃ st, solve (kmmrk3Solver c la id results store) fuel p s0 h5 = .returned st ∧ p.T - p.dt < st.p.t ∧ st.p.t ≤ p.T + 1e-12 ∧
      FieldsWithin q L (C * p.dt ^ 2) st.s.U (U st.p.t) ∧ ∀ o ∈ st.outs, FieldsWithin q L (C * p.dt ^ 2) o.2.U (U o.1.t) := by
  obtain ⟨C, H0, hH0, H⟩ := C99_kmmrk3 S hT hU
  refine ⟨C, H0, hH0, fun p ht hdt hdt' hT1 hT2 la hla s0 e1 e2 results store h5 fuel hf => ?_⟩
  exact channel_accurate (fun dt => Channel.integrate3 { c with dt := dt } la) (fun s => { s with U := id s.U }) id (fun s => results s.U)
    [(0, fun s => store s.U)] p ht hdt hT1 hT2 s0 h5 fuel hf (fun x t => FieldsWithin q L (C * p.dt ^ 2) x.U (U t))
    (fun _ _ h => h) (fun i hi => (H p.dt hdt hdt' la hla s0 e1 e2 i hi).2)

theorem rb_run {r : RBCtx (RModes N) (Fin n → ℂ) (Fin (n + 2) → ℂ)}
    {convT : Vel (RModes N) (Fin n → ℂ) (Fin (n + 2) → ℂ) → Temp (RModes N) (Fin (n + 2) → ℂ) → RModes N → Fin (n + 2) → ℂ}
    {T : ℝ} {U : ℝ → Vel (RModes N) (Fin n → ℂ) (Fin (n + 2) → ℂ)} {g : ℝ → RModes N → Fin (n + 2) → ℂ}
    {phi : ℝ → Temp (RModes N) (Fin (n + 2) → ℂ)} {E : ℝ} {p : Params} (ht : p.t = 0) (hdt : 0 < p.dt) (hT1 : p.dt ≤ p.T) (hT2 : p.T + 1e-12 ≤ T)
    (H : ∀ s, RunRB r convT U g phi p.dt s → ∀ m : ℕ, m * p.dt ≤ T → FieldsWithinRB L E (s m).s.U (s m).phi (U (m * p.dt)) (phi (m * p.dt)))
    (la : Fin 3 → LA (RModes N) (Fin n → ℂ) (Fin (n + 2) → ℂ)) (solveT : Fin 3 → RModes N → (Fin (n + 2) → ℂ) → Fin (n + 2) → ℂ)
    (hla : ∀ rk, (la rk).Solves3 r.c.nu p.dt (rkA rk + rkB rk) r.c.G r.c.M) (hsT : ∀ rk, SolvesT { r with c := { r.c with dt := p.dt } } (rkA rk + rkB rk) (solveT rk))
    (s0 : RB3St (RModes N) (Fin n → ℂ) (Fin (n + 2) → ℂ)) (e1 : s0.s.U = U 0) (e2 : s0.s.g = g 0) (e3 : s0.phi = phi 0)
    (results store : Vel (RModes N) (Fin n → ℂ) (Fin (n + 2) → ℂ) → Temp (RModes N) (Fin (n + 2) → ℂ) → D) (h5 : H5 D) (fuel : ℕ)
    (hf : (p.T + 1e-12) / p.dt < fuel) :
    ∃ st, solve (kmmrk3rbSolver r convT la solveT results store) fuel p s0 h5 = .returned st ∧ p.T - p.dt < st.p.t ∧ st.p.t ≤ p.T + 1e-12 ∧
      FieldsWithinRB L E st.s.s.U st.s.phi (U st.p.t) (phi st.p.t) ∧ ∀ o ∈ st.outs, FieldsWithinRB L E o.2.s.U o.2.phi (U o.1.t) (phi o.1.t) := by
  have hs := fun F : RB3St (RModes N) (Fin n → ℂ) (Fin (n + 2) → ℂ) → RB3St (RModes N) (Fin n → ℂ) (Fin (n + 2) → ℂ) => fun
    hF : F = Channel.integrateRB3 { r with c := { r.c with dt := p.dt } } convT la solveT =>
    H (fun i => (fun s => id (id (F s)))^[i] s0) ⟨la, solveT, hla, hsT, e1, e2, e3, fun i => by
      rw [← hF]; exact Function.iterate_succ_apply' _ _ _⟩
  unfold kmmrk3rbSolver
  generalize hS : (fun dt => Channel.integrateRB3 { r with c := { r.c with dt := dt } } convT la solveT) = step
  have hF : step p.dt = Channel.integrateRB3 { r with c := { r.c with dt := p.dt } } convT la solveT := by rw [← hS]
  exact channel_accurate step id id _ _ p ht hdt hT1 hT2 s0 h5 fuel hf (fun x t => FieldsWithinRB L E x.s.U x.phi (U t) (phi t))
    (fun _ _ h => h) (hs _ hF)

/-- **C101 (KMMRK3_RB).**  The same with temperature, to first order (C100). -/
theorem C101_kmmrk3_rb (S : ChebCtx .GC n M L hN c kind) {kappa : ℝ} (hkappa : 0 < kappa) (bc : ℝ × ℝ)
    {prodB : Temp (RModes N) (Fin (n + 2) → ℂ) → (RModes N → Fin n → ℂ) → RModes N → Fin n → ℂ}
    {prodD : Temp (RModes N) (Fin (n + 2) → ℂ) → (RModes N → Fin (n + 2) → ℂ) → RModes N → Fin (n + 2) → ℂ}
    {T : ℝ} (hT : 0 ≤ T) {U : ℝ → Vel (RModes N) (Fin n → ℂ) (Fin (n + 2) → ℂ)} {g : ℝ → RModes N → Fin (n + 2) → ℂ}
    {phi : ℝ → Temp (RModes N) (Fin (n + 2) → ℂ)} (r : RBCtx (RModes N) (Fin n → ℂ) (Fin (n + 2) → ℂ)) (hr : r = chebRB bc .GC .GC n c kappa prodB prodD)
    (convT : Vel (RModes N) (Fin n → ℂ) (Fin (n + 2) → ℂ) → Temp (RModes N) (Fin (n + 2) → ℂ) → RModes N → Fin (n + 2) → ℂ)
    (hconvT : convT = standardRB .GC n (chebWall .GC n) (rspace N M) c.G) (hU : SemiDiscreteRB r convT T U g phi) : ∃ C H0 : ℝ, 0 < H0 ∧
    ∀ p : Params, p.t = 0 → 0 < p.dt → p.dt ≤ H0 → p.dt ≤ p.T → p.T + 1e-12 ≤ T →
    ∀ (la : Fin 3 → LA (RModes N) (Fin n → ℂ) (Fin (n + 2) → ℂ)) (solveT : Fin 3 → RModes N → (Fin (n + 2) → ℂ) → Fin (n + 2) → ℂ),
    (∀ rk, (la rk).Solves3 r.c.nu p.dt (rkA rk + rkB rk) r.c.G r.c.M) → (∀ rk, SolvesT { r with c := { r.c with dt := p.dt } } (rkA rk + rkB rk) (solveT rk)) →
    ∀ s0 : RB3St (RModes N) (Fin n → ℂ) (Fin (n + 2) → ℂ), s0.s.U = U 0 → s0.s.g = g 0 → s0.phi = phi 0 →
    ∀ (results store : Vel (RModes N) (Fin n → ℂ) (Fin (n + 2) → ℂ) → Temp (RModes N) (Fin (n + 2) → ℂ) → D) (h5 : H5 D) (fuel : ℕ),
    (p.T + 1e-12) / p.dt < fuel →
    ∃ st, solve (kmmrk3rbSolver r convT la solveT results store) fuel p s0 h5 = .returned st ∧ p.T - p.dt < st.p.t ∧ st.p.t ≤ p.T + 1e-12 ∧
      FieldsWithinRB L (C * p.dt) st.s.s.U st.s.phi (U st.p.t) (phi st.p.t) ∧
      ∀ o ∈ st.outs, FieldsWithinRB L (C * p.dt) o.2.s.U o.2.phi (U o.1.t) (phi o.1.t) := by
  have h0 := hU
  rw [hr, hconvT] at h0
  obtain ⟨C, H0, hH0, H⟩ := C100_kmmrk3_rb_partial S hkappa bc hT h0
  rw [← hr, ← hconvT] at H
  exact ⟨C, H0, hH0, fun p ht hdt hdt' hT1 hT2 la solveT hla hsT s0 e1 e2 e3 results store h5 fuel hf =>
    rb_run ht hdt hT1 hT2 (fun s hs m hm => (H p.dt hdt hdt' s hs m hm).2) la solveT hla hsT s0 e1 e2 e3 results store h5 fuel hf⟩

/-- **C101 (KMM_RB).**  The solver does not converge (C100), but a call of `solve` returns with all steps taken, each followed by the exchange of the time levels, and
what it leaves and everything handed to the output is a divergence-free velocity which is zero at the walls, and a temperature with the prescribed wall values. -/
theorem C101_kmm_rb {bc : ℝ × ℝ} (hL : ∀ i, L i ≠ 0) (hG : c.G = waveGrid N L hN) {qT : Quad} {kappa : ℝ}
    {prodB : Temp (RModes N) (Fin (n + 2) → ℂ) → (RModes N → Fin n → ℂ) → RModes N → Fin n → ℂ}
    {prodD : Temp (RModes N) (Fin (n + 2) → ℂ) → (RModes N → Fin (n + 2) → ℂ) → RModes N → Fin (n + 2) → ℂ}
    (hM : c.M = chebMats q n) (la : LA (RModes N) (Fin n → ℂ) (Fin (n + 2) → ℂ)) (htdma : ∀ b, c.M.BDD (la.tdmaD b) = b)
    (solveT : RModes N → (Fin (n + 2) → ℂ) → Fin (n + 2) → ℂ) (p : Params) (ht : p.t = 0) (hdt : 0 < p.dt) (hT : p.dt ≤ p.T)
    (s0 : RBSt (RModes N) (Fin n → ℂ) (Fin (n + 2) → ℂ))
    (results store : Vel (RModes N) (Fin n → ℂ) (Fin (n + 2) → ℂ) → Temp (RModes N) (Fin (n + 2) → ℂ) → D) (h5 : H5 D) (fuel : ℕ)
    (hf : (p.T + 1e-12) / p.dt < fuel) :
    let Good := fun s : RBSt (RModes N) (Fin n → ℂ) (Fin (n + 2) → ℂ) =>
      Spec.Field.DivergenceFree (fieldU (chebWall q n) L s.s.U) (fieldV (chebWall q n) L s.s.U) (fieldW (chebWall q n) L s.s.U) ∧
      Spec.Field.NoSlip (fieldU (chebWall q n) L s.s.U) (fieldV (chebWall q n) L s.s.U) (fieldW (chebWall q n) L s.s.U) ∧
      Spec.Field.WallTemperatures bc (fieldT L s.phi)
    ∃ (m : ℕ) (st : St (RBSt (RModes N) (Fin n → ℂ) (Fin (n + 2) → ℂ)) Unit D),
      solve (kmmrbSolver (chebRB bc q qT n c kappa prodB prodD) la solveT results store) fuel p s0 h5 = .returned st ∧
      m * p.dt ≤ p.T + 1e-12 ∧ p.T < m * p.dt + p.dt ∧ st.p.t = m * p.dt ∧ st.p.tstep = p.tstep + m ∧
      st.s = (tickRB (chebRB bc q qT n { c with dt := p.dt } kappa prodB prodD) la solveT)^[m] s0 ∧ Good st.s ∧ ∀ o ∈ st.outs, Good o.2 := by
  intro Good
  have hgood : ∀ m, Good ((tickRB (chebRB bc q qT n { c with dt := p.dt } kappa prodB prodD) la solveT)^[m + 1] s0) := fun m =>
    C79_kmm_rb_fields n hN hL { c with dt := p.dt } hG kappa prodB prodD q qT hM la htdma solveT s0 m
  unfold kmmrbSolver
  generalize hS : (fun dt => Channel.integrateRB { chebRB bc q qT n c kappa prodB prodD with c := { (chebRB bc q qT n c kappa prodB prodD).c with dt := dt } } la solveT) = step
  have hstep : step p.dt = Channel.integrateRB (chebRB bc q qT n { c with dt := p.dt } kappa prodB prodD) la solveT := by rw [← hS]; rfl
  obtain ⟨m, st, h1, h2, h3, h4, h5', h6, h7⟩ := channel_run step id Channel.endOfTstepRB
    (fun s => results s.s.U s.phi) [(0, fun s => store s.s.U s.phi), (1, fun s => store s.s.U0 s.phi0)] p ht hdt hT s0 h5 fuel hf
  have hF : (fun s => Channel.endOfTstepRB (id (step p.dt s))) = tickRB (chebRB bc q qT n { c with dt := p.dt } kappa prodB prodD) la solveT := by
    funext s; rw [hstep]; rfl
  rw [hF] at h6 h7
  refine ⟨m, st, h1, h2, h3, h4, h5', h6, ?_, fun o ho => ?_⟩
  · obtain ⟨k, rfl⟩ : ∃ k, m = k + 1 := by
      rcases m with _ | k
      · norm_num at h3; linarith
      · exact ⟨k, rfl⟩
    rw [h6]
    exact hgood k
  · obtain ⟨i, -, -, e⟩ := h7 o ho
    have := hgood i
    rw [Function.iterate_succ_apply', ← hF] at this
    rw [e, ← hF]
    exact this

/-- The solver with its own convections meets the hypotheses of `C101_kmm_rb` on every grid: a thousand steps from any state. -/
example (hL : ∀ i, L i ≠ 0) (bc : ℝ × ℝ) (s0 : RBSt (RModes N) (Fin n → ℂ) (Fin (n + 2) → ℂ)) (h5 : H5 Unit) :
    let c : Ctx (RModes N) (Fin n → ℂ) (Fin (n + 2) → ℂ) := ⟨1 / 100, 1 / 1000, waveGrid N L hN, chebMats .GC n, none,
      convection .vortex (chebWall .GC n) (rspace N N) (waveGrid N L hN), scalarProduct .GC (n + 4) phi 0⟩
    let r := chebRB bc .GC .GL n c (1 / 50) (prodBwall .GC n (rspace N N)) (prodDwall .GC n (rspace N N))
    ∃ la solveT st, la.Solves c.nu c.dt c.G c.M ∧ SolvesT r 1 solveT ∧
      solve (kmmrbSolver r la solveT (fun _ _ => ()) (fun _ _ => ())) 2000 ⟨0, 1 / 1000, 1, 0, 1, 1, true⟩ s0 h5 = .returned st ∧
      Spec.Field.WallTemperatures bc (fieldT L st.s.phi) := by
  intro c r
  obtain ⟨la, hla, -⟩ := Galerkin.C75_kmm (κ := RModes N) .GC n (waveGrid N L hN) (1 / 100) (1 / 1000) (by norm_num) (by norm_num)
  obtain ⟨solveT, hT, -⟩ := Galerkin.C75_rb .GC n r rfl rfl (by norm_num [r, chebRB]) (by norm_num [r, chebRB, c]) 1 (Or.inl rfl)
  obtain ⟨m, st, h1, -, -, -, -, -, h2, -⟩ := C101_kmm_rb (D := Unit) (hN := hN) (c := c) (bc := bc) (qT := .GL) (kappa := 1 / 50) (prodB := prodBwall .GC n (rspace N N))
    (prodD := prodDwall .GC n (rspace N N)) hL rfl (q := .GC) rfl la hla.tdmaD solveT ⟨0, 1 / 1000, 1, 0, 1, 1, true⟩ rfl (by norm_num) (by norm_num) s0
    (fun _ _ => ()) (fun _ _ => ()) h5 2000 (by norm_num)
  exact ⟨la, solveT, st, hla, hT, h1, h2.2.2⟩

end channel

section coupled

open Channel Coupled

variable {N M : Fin 2 → ℕ} {n : ℕ} {q : Quad} {L : Fin 2 → ℝ} {hN : ∀ i, 0 < N i}
  {c : Coupled.Ctx (RModes N) (Fin (n + 2) → ℂ) (Fin (n + 4) → ℂ) (Fin (n + 4) → ℂ)} {e : Channel.Ctx (RModes N) (Fin n → ℂ) (Fin (n + 2) → ℂ)} {kind : ConvKind}

/-- **C101 (Coupled).** -/
theorem C101_coupled (S : Setup q n M L hN c e kind) {T : ℝ} (hT : 0 ≤ T) {U : ℝ → Channel.Vel (RModes N) (Fin n → ℂ) (Fin (n + 2) → ℂ)}
    {g : ℝ → RModes N → Fin (n + 2) → ℂ} (hU : SemiDiscrete e T U g) (hg : g 0 e.G.zero = 0) : ∃ C H0 : ℝ, 0 < H0 ∧
    ∀ p : Params, p.t = 0 → 0 < p.dt → p.dt ≤ H0 → p.dt ≤ p.T → p.T + 1e-12 ≤ T →
    ∀ sol : Vec (RModes N) (Fin (n + 2) → ℂ) → Coupled.Vel (RModes N) (Fin (n + 2) → ℂ) × (RModes N → Fin (n + 4) → ℂ),
    Coupled.Solves { c with dt := p.dt } (2 / c.nu / p.dt) (2 / c.nu) (rest n) (pinFirst n) (pinLast n) sol →
    ∀ s0 : Coupled.St (RModes N) (Fin (n + 2) → ℂ) (Fin (n + 4) → ℂ), Coupled.Same s0.U (U 0) → s0.H1 = c.conv s0.U →
    ∀ (results : Coupled.Vel (RModes N) (Fin (n + 2) → ℂ) → D) (store : Coupled.Vel (RModes N) (Fin (n + 2) → ℂ) → (RModes N → Fin (n + 4) → ℂ) → D)
      (h5 : H5 D) (fuel : ℕ), (p.T + 1e-12) / p.dt < fuel →
    ∃ st, solve (coupledSolver c sol id results store) fuel p s0 h5 = .returned st ∧ p.T - p.dt < st.p.t ∧ st.p.t ≤ p.T + 1e-12 ∧
      Coupled.FieldsWithin q L (C * p.dt ^ 2) st.s.U (U st.p.t) ∧ ∀ o ∈ st.outs, Coupled.FieldsWithin q L (C * p.dt ^ 2) o.2.U (U o.1.t) := by
  obtain ⟨C, H0, hH0, H⟩ := C99_coupled S hT hU hg
  refine ⟨C, H0, hH0, fun p ht hdt hdt' hT1 hT2 sol hs s0 e1 e2 results store h5 fuel hf => ?_⟩
  exact channel_accurate (fun dt => Coupled.integrate { c with dt := dt } sol) (fun s => { s with U := id s.U }) Coupled.endOfTstep (fun s => results s.U)
    [(0, fun s => store s.U s.pr), (1, fun s => store s.U0 s.pr0)] p ht hdt hT1 hT2 s0 h5 fuel hf (fun x t => Coupled.FieldsWithin q L (C * p.dt ^ 2) x.U (U t))
    (fun _ _ h => h) (H p.dt hdt hdt' sol hs s0 e1 e2)

/-- **C101 (CoupledRK3).** -/
theorem C101_coupledrk3 (S : Setup q n M L hN c e kind) {T : ℝ} (hT : 0 ≤ T) {U : ℝ → Channel.Vel (RModes N) (Fin n → ℂ) (Fin (n + 2) → ℂ)}
    {g : ℝ → RModes N → Fin (n + 2) → ℂ} (hU : SemiDiscrete e T U g) (hg : g 0 e.G.zero = 0) : ∃ C H0 : ℝ, 0 < H0 ∧
    ∀ p : Params, p.t = 0 → 0 < p.dt → p.dt ≤ H0 → p.dt ≤ p.T → p.T + 1e-12 ≤ T →
    ∀ sol : Fin 3 → Vec (RModes N) (Fin (n + 2) → ℂ) → Coupled.Vel (RModes N) (Fin (n + 2) → ℂ) × (RModes N → Fin (n + 4) → ℂ),
    (∀ rk, Coupled.Solves { c with dt := p.dt } (2 / c.nu / p.dt / rkG rk) (2 / c.nu / rkG rk) (rest n) (pinFirst n) (pinLast n) (sol rk)) →
    ∀ s0 : Coupled.St3 (RModes N) (Fin (n + 2) → ℂ) (Fin (n + 4) → ℂ), Coupled.Same s0.U (U 0) →
    ∀ (results : Coupled.Vel (RModes N) (Fin (n + 2) → ℂ) → D) (store : Coupled.Vel (RModes N) (Fin (n + 2) → ℂ) → (RModes N → Fin (n + 4) → ℂ) → D)
      (h5 : H5 D) (fuel : ℕ), (p.T + 1e-12) / p.dt < fuel →
    ∃ st, solve (coupledrk3Solver c sol id results store) fuel p s0 h5 = .returned st ∧ p.T - p.dt < st.p.t ∧ st.p.t ≤ p.T + 1e-12 ∧
      Coupled.FieldsWithin q L (C * p.dt ^ 2) st.s.U (U st.p.t) ∧ ∀ o ∈ st.outs, Coupled.FieldsWithin q L (C * p.dt ^ 2) o.2.U (U o.1.t) := by
  obtain ⟨C, H0, hH0, H⟩ := C99_coupledrk3 S hT hU hg
  refine ⟨C, H0, hH0, fun p ht hdt hdt' hT1 hT2 sol hs s0 e1 results store h5 fuel hf => ?_⟩
  exact channel_accurate (fun dt => Coupled.integrate3 { c with dt := dt } sol) (fun s => { s with U := id s.U }) id (fun s => results s.U)
    [(0, fun s => store s.U s.pr)] p ht hdt hT1 hT2 s0 h5 fuel hf (fun x t => Coupled.FieldsWithin q L (C * p.dt ^ 2) x.U (U t))
    (fun _ _ h => h) (H p.dt hdt hdt' sol hs s0 e1)

end coupled

end SpectralDNS.Solve

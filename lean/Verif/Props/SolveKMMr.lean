import Verif.Props.SolveAccuracy
import Verif.Props.KMMr

/-!
# C99, C101 for KMMr, through its identity with KMM (C86)
-/

namespace SpectralDNS.KMMr

open SpectralDNS.Channel (Quad LA Vec SemiDiscrete chebMats chebWall)
open SpectralDNS.Periodic (RModes scaledWaves rspace)

variable {N M : Fin 2 → ℕ} {n : ℕ} {q : Quad} {L : Fin 2 → ℝ} {hN : ∀ i, 0 < N i} {c : Ctx (RModes N) (Fin n → ℂ) (Fin (n + 2) → ℂ)}

/-- KMMr on a mesh with `N 0 × N 1` wavenumbers (transforms with `M 0 × M 1` points) and `n + 4` points between the walls, with the form `Vortex` of the
convection (the only one that runs). -/
structure ChebCtx (q : Quad) (n : ℕ) (M : Fin 2 → ℕ) (L : Fin 2 → ℝ) (hN : ∀ i, 0 < N i) (c : Ctx (RModes N) (Fin n → ℂ) (Fin (n + 2) → ℂ)) : Prop where
  sides : ∀ i, L i ≠ 0
  mats : c.M = chebMats q n
  grid : c.G = waveGrid N L hN
  visc : 0 < c.nu
  conv : c.conv = vortex (chebWall q n) (rspace N M) c.G

theorem ChebCtx.regular (S : ChebCtx q n M L hN c) : Channel.Regular c.rot := Channel.cheb_regular q c.rot S.mats

theorem ChebCtx.only_mean (S : ChebCtx q n M L hN c) (k : RModes N) : c.rot.G.Ksq k = 0 ↔ k = c.rot.G.zero := by
  show (Grid.rot c.G).Ksq k = 0 ↔ k = c.G.zero
  rw [S.grid]
  exact Channel.waveGrid_zero N L hN S.sides k

theorem ChebCtx.rot_conv (S : ChebCtx q n M L hN c) : c.rot.conv = Channel.convection .vortex (chebWall q n) (rspace N M) c.G.rotx := by
  funext U g
  show rotVec (c.conv (unrot U) g) = _
  rw [S.conv, C86_vortex]
  rfl

theorem ChebCtx.quad (S : ChebCtx q n M L hN c) : Channel.QuadConv c.rot :=
  Channel.quadConv_convection c.rot (chebWall q n) (Periodic.dft_linear (Periodic.kernel (Periodic.waves N) M) (Periodic.rweight N)) .vortex S.rot_conv

/-- The velocities differ by at most `ε` at every point between the walls. -/
def FieldsWithin (q : Quad) (L : Fin 2 → ℝ) (ε : ℝ) (U U' : Vel (RModes N) (Fin n → ℂ) (Fin (n + 2) → ℂ)) : Prop :=
  ∀ x y, ∀ z ∈ Set.Icc (-1 : ℝ) 1, |field0 q n L U x y z - field0 q n L U' x y z| ≤ ε ∧ |field1 q n L U x y z - field1 q n L U' x y z| ≤ ε ∧
    |field2 q n L U x y z - field2 q n L U' x y z| ≤ ε

theorem fieldsWithin_rot {ε : ℝ} {U U' : Vel (RModes N) (Fin n → ℂ) (Fin (n + 2) → ℂ)} (h : Channel.FieldsWithin q L ε U.rot U'.rot) : FieldsWithin q L ε U U' :=
  fun x y z hz => ⟨(h z hz x y).2.1, (h z hz x y).2.2, (h z hz x y).1⟩

/-- **C99 (KMMr).**  Runs of KMMr converge with second order to the solution of its equations, which are those of KMM with the axes exchanged. -/
theorem C99_kmmr (S : ChebCtx q n M L hN c) {T : ℝ} (hT : 0 ≤ T) {U : ℝ → Vel (RModes N) (Fin n → ℂ) (Fin (n + 2) → ℂ)}
    {g : ℝ → RModes N → Fin (n + 2) → ℂ} (hU : SemiDiscrete c.rot T (fun t => (U t).rot) g) : ∃ C H0 : ℝ, 0 < H0 ∧ ∀ dt, 0 < dt → dt ≤ H0 →
    ∀ la : LA (RModes N) (Fin n → ℂ) (Fin (n + 2) → ℂ), la.Solves c.nu dt c.G.rot c.M →
    ∀ s0 : St (RModes N) (Fin n → ℂ) (Fin (n + 2) → ℂ), s0.U = U 0 → s0.U0 = U 0 → s0.g = g 0 → s0.H1 = c.conv (U 0) (g 0) →
    ∀ m : ℕ, m * dt ≤ T → FieldsWithin q L (C * dt ^ 2) ((tick { c with dt := dt } la id)^[m] s0).U (U (m * dt)) := by
  obtain ⟨C, H0, hH0, H⟩ := Channel.kmm_converges S.regular S.only_mean S.quad S.visc.ne' hT hU (le_refl (0 : ℝ))
  obtain ⟨K, hK, HK⟩ := Channel.within_fields (N := N) (n := n) q L
  refine ⟨K * |C|, H0, hH0, fun dt hdt hdt' la hla s0 e1 e2 e3 e4 m hm => fieldsWithin_rot ?_⟩
  have h := H dt hdt hdt' la hla s0.rot (by simp only [St.rot, e1]) (by simp only [St.rot, e2]) e3 (fun k => by
    have : (s0.rot).H1 = c.rot.conv (U 0).rot (g 0) := by
      show rotVec s0.H1 = rotVec (c.conv (unrot (U 0).rot) (g 0))
      rw [e4]
      rfl
    rw [this]
    simp) m hm
  have e := C86_run { c with dt := dt } la id s0 m
  have e' : (((tick { c with dt := dt } la id)^[m] s0).U).rot = _ := congrArg Channel.St.U e
  have hC : C * dt ^ 2 ≤ |C| * dt ^ 2 := mul_le_mul_of_nonneg_right (le_abs_self C) (by positivity)
  rw [e', mul_assoc]
  exact (HK _ _ _ _ _ (by positivity) fun k =>
    ⟨(h k).1.trans hC, (h k).2.1.trans hC, (h k).2.2.1.trans hC, (h k).2.2.2.trans hC⟩).2

end SpectralDNS.KMMr

namespace SpectralDNS.Solve

open KMMr Channel Periodic

variable {D : Type*} {N M : Fin 2 → ℕ} {n : ℕ} {q : Quad} {L : Fin 2 → ℝ} {hN : ∀ i, 0 < N i} {c : KMMr.Ctx (RModes N) (Fin n → ℂ) (Fin (n + 2) → ℂ)}

/-- **C101 (KMMr).** -/
theorem C101_kmmr (S : KMMr.ChebCtx q n M L hN c) {T : ℝ} (hT : 0 ≤ T) {U : ℝ → KMMr.Vel (RModes N) (Fin n → ℂ) (Fin (n + 2) → ℂ)}
    {g : ℝ → RModes N → Fin (n + 2) → ℂ} (hU : SemiDiscrete c.rot T (fun t => (U t).rot) g) : ∃ C H0 : ℝ, 0 < H0 ∧
    ∀ p : Params, p.t = 0 → 0 < p.dt → p.dt ≤ H0 → p.dt ≤ p.T → p.T + 1e-12 ≤ T →
    ∀ la : LA (RModes N) (Fin n → ℂ) (Fin (n + 2) → ℂ), la.Solves c.nu p.dt c.G.rot c.M →
    ∀ s0 : KMMr.St (RModes N) (Fin n → ℂ) (Fin (n + 2) → ℂ), s0.U = U 0 → s0.U0 = U 0 → s0.g = g 0 → s0.H1 = c.conv (U 0) (g 0) →
    ∀ (results store : KMMr.Vel (RModes N) (Fin n → ℂ) (Fin (n + 2) → ℂ) → D) (h5 : H5 D) (fuel : ℕ), (p.T + 1e-12) / p.dt < fuel →
    ∃ st, solve (kmmrSolver c la id results store) fuel p s0 h5 = .returned st ∧ p.T - p.dt < st.p.t ∧ st.p.t ≤ p.T + 1e-12 ∧
      KMMr.FieldsWithin q L (C * p.dt ^ 2) st.s.U (U st.p.t) ∧ ∀ o ∈ st.outs, KMMr.FieldsWithin q L (C * p.dt ^ 2) o.2.U (U o.1.t) := by
  obtain ⟨C, H0, hH0, H⟩ := C99_kmmr S hT hU
  refine ⟨C, H0, hH0, fun p ht hdt hdt' hT1 hT2 la hla s0 e1 e2 e3 e4 results store h5 fuel hf => ?_⟩
  exact channel_accurate (fun dt => KMMr.integrate { c with dt := dt } la) (fun s => { s with U := id s.U }) KMMr.endOfTstep (fun s => results s.U)
    [(0, fun s => store s.U), (1, fun s => store s.U0)] p ht hdt hT1 hT2 s0 h5 fuel hf (fun x t => KMMr.FieldsWithin q L (C * p.dt ^ 2) x.U (U t))
    (fun _ _ h => h) (H p.dt hdt hdt' la hla s0 e1 e2 e3 e4)

/-- A context that meets the hypotheses, on every mesh. -/
noncomputable example (hN : ∀ i, 0 < N i) : KMMr.ChebCtx (N := N) .GC n N (fun _ => 1) hN
    { nu := 1, dt := 1, G := KMMr.waveGrid N (fun _ => 1) hN, M := chebMats .GC n, mask := none,
      conv := vortex (chebWall .GC n) (rspace N N) (KMMr.waveGrid N (fun _ => 1) hN), Sk0 := 1 } :=
  ⟨fun _ => one_ne_zero, rfl, rfl, one_pos, rfl⟩

end SpectralDNS.Solve

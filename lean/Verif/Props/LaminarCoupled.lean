import Verif.Props.CoupledCheb
import Verif.Props.LaminarError

/-!
# C115 for the coupled channel solvers
-/

namespace SpectralDNS.Laminar

open Real Filter Topology Periodic Heat Spec.Channel
open SpectralDNS.Channel (Quad phi quadPoint scalarProduct)
open SpectralDNS.Coupled (Setup Solves rest pinFirst pinLast tick tick3 asVel C98_kmm C98_kmmrk3)

variable {N M : Fin 2 → ℕ} {L : Fin 2 → ℝ} {hN : ∀ i, 0 < N i} {n : ℕ} {q : Quad} {kind : Channel.ConvKind}
  {c : Coupled.Ctx (RModes N) (Fin (n + 2) → ℂ) (Fin (n + 4) → ℂ) (Fin (n + 4) → ℂ)} {d : Channel.Ctx (RModes N) (Fin n → ℂ) (Fin (n + 2) → ℂ)}

/-- `initialize` (LaminarChannel.py:9-11) on a new context of Coupled (Coupled.py:65-92, all arrays zero). -/
def startC : Coupled.St (RModes N) (Fin (n + 2) → ℂ) (Fin (n + 4) → ℂ) := ⟨⟨0, 0, 0⟩, 0, ⟨0, 0, 0⟩, ⟨0, 0, 0⟩, ⟨0, 0, 0⟩, ⟨0, 0, 0⟩, 0⟩

/-- The same for CoupledRK3. -/
def startC3 : Coupled.St3 (RModes N) (Fin (n + 2) → ℂ) (Fin (n + 4) → ℂ) := ⟨⟨0, 0, 0⟩, 0, ⟨0, 0, 0⟩, ⟨0, 0, 0⟩⟩

theorem waveGrid_waves (L : Fin 2 → ℝ) (hN : ∀ i, 0 < N i) (i : Fin 2) : waves N i (Channel.waveGrid N L hN).zero = 0 := by
  have h0 : (((Channel.waveGrid N L hN).zero i : Fin _) : ℕ) = 0 := rfl
  have := hN i
  simp only [waves, h0]
  split_ifs <;> simp

theorem setup_demo (S : Setup q n M L hN c d kind) (hM : ∀ i, N i ≤ M i) {Re : ℝ}
    (hSk : c.Sk1 c.G.zero = set_Source (scalarProduct q (n + 4) phi) Re) : Demo q n N M c.nu Re kind d where
  hN := hN
  hP := hM
  nu := S.nu
  dt := by rw [S.dt]; exact S.dt_pos
  M := S.matsK
  K1 := by
    rw [S.gridK]
    show 2 * π / L 0 * waves N 0 (Channel.waveGrid N L hN).zero = 0
    rw [waveGrid_waves]; simp
  K2 := by
    rw [S.gridK]
    show 2 * π / L 1 * waves N 1 (Channel.waveGrid N L hN).zero = 0
    rw [waveGrid_waves]; simp
  zero := by
    rw [S.gridK]
    exact waveGrid_waves L hN
  conv := S.convK
  Sk := by rw [S.mean, hSk]

theorem rest_same : Coupled.Same (⟨0, 0, 0⟩ : Coupled.Vel (RModes N) (Fin (n + 2) → ℂ)) (⟨0, 0, 0⟩ : Channel.Vel (RModes N) (Fin n → ℂ) (Fin (n + 2) → ℂ)) :=
  fun k => ⟨by simp, rfl, rfl⟩

theorem rest_solenoidal (d : Channel.Ctx (RModes N) (Fin n → ℂ) (Fin (n + 2) → ℂ)) : Channel.Solenoidal d ⟨0, 0, 0⟩ 0 :=
  ⟨fun k => by simp [Continuity], fun k _ => by simp [curl], rfl⟩

/-- The column of the streamwise velocity that the demo compares. -/
noncomputable def columnC (q : Quad) (n : ℕ) (U : Coupled.Vel (RModes N) (Fin (n + 2) → ℂ)) (p : Periodic.Grid N) (j : Fin (n + 4)) : ℝ :=
  Channel.velocity (Coupled.chebWall q n) (rspace N N) (asVel U) 1 j p

open Classical in
theorem coupled_close (S : Setup q n M L hN c d kind) (hNM : ∀ i, N i ≤ M i) {Re : ℝ} (hRe : 0 < Re)
    (hSk : c.Sk1 c.G.zero = set_Source (scalarProduct q (n + 4) phi) Re) (hdt1 : c.dt ≤ 1) {m : ℕ} (hm : 0 < m)
    (solve : Channel.Vec (RModes N) (Fin (n + 2) → ℂ) → Coupled.Vel (RModes N) (Fin (n + 2) → ℂ) × (RModes N → Fin (n + 4) → ℂ))
    (hs : Solves c (2 / c.nu / c.dt) (2 / c.nu) (rest n) (pinFirst n) (pinLast n) solve) (i : ℕ) (p : Periodic.Grid N) :
    CloseTo q n c.nu Re m c.dt (i * c.dt) (columnC q n ((tick c solve id)^[i] startC).U p) := by
  have D := setup_demo S hNM hSk
  have hnu : 0 < d.nu := by rw [S.nu]; exact S.nu_pos
  obtain ⟨la, hla, -⟩ := Galerkin.C75_kmm q n d.G d.nu d.dt hnu D.dt
  rw [← S.matsK] at hla
  have h := kmm_close D S.nu_pos hRe (by rw [S.dt]; exact hdt1) hm la hla i p
  have h2 := (C98_kmm S solve hs la hla id id (fun _ _ h => h) (fun U => ⟨rfl, fun k _ => ⟨rfl, rfl⟩⟩) startC start rest_same (rest_solenoidal d) rfl rfl rfl i).1
  rw [S.dt] at h
  have e : columnC q n ((tick c solve id)^[i] startC).U p =
      fun j => Channel.velocity (Channel.chebWall q n) (rspace N N) ((Channel.tick d la id)^[i] start).U 1 j p := by
    have : ((tick c solve id)^[i] startC).U.c1 = ((Channel.tick d la id)^[i] start).U.v := _root_.funext fun k => (h2 k).2.1
    unfold columnC
    simp only [Channel.velocity, asVel, this]
    rfl
  rw [e]
  exact h

open Classical in
theorem coupledrk3_close (S : Setup q n M L hN c d kind) (hNM : ∀ i, N i ≤ M i) {Re : ℝ} (hRe : 0 < Re)
    (hSk : c.Sk1 c.G.zero = set_Source (scalarProduct q (n + 4) phi) Re) (hdt1 : c.dt ≤ 1) {m : ℕ} (hm : 0 < m)
    (solve : Fin 3 → Channel.Vec (RModes N) (Fin (n + 2) → ℂ) → Coupled.Vel (RModes N) (Fin (n + 2) → ℂ) × (RModes N → Fin (n + 4) → ℂ))
    (hs : ∀ rk, Solves c (2 / c.nu / c.dt / Coupled.rkG rk) (2 / c.nu / Coupled.rkG rk) (rest n) (pinFirst n) (pinLast n) (solve rk)) (i : ℕ)
    (p : Periodic.Grid N) : CloseTo q n c.nu Re m c.dt (i * c.dt) (columnC q n ((tick3 c solve id)^[i] startC3).U p) := by
  have D := setup_demo S hNM hSk
  have hnu : 0 < d.nu := by rw [S.nu]; exact S.nu_pos
  choose la hla _ using fun rk => Galerkin.C75_kmmrk3 q n d.G d.nu d.dt hnu D.dt rk
  rw [← S.matsK] at hla
  have h := kmmrk3_close D S.nu_pos hRe (by rw [S.dt]; exact hdt1) hm la hla i p
  have h2 := (C98_kmmrk3 S solve hs la hla id id (fun _ _ h => h) (fun U => ⟨rfl, fun k _ => ⟨rfl, rfl⟩⟩) startC3 start3 rest_same (rest_solenoidal d) rfl i).1
  rw [S.dt] at h
  have e : columnC q n ((tick3 c solve id)^[i] startC3).U p =
      fun j => Channel.velocity (Channel.chebWall q n) (rspace N N) ((Channel.tick3 d la id)^[i] start3).U 1 j p := by
    have : ((tick3 c solve id)^[i] startC3).U.c1 = ((Channel.tick3 d la id)^[i] start3).U.v := _root_.funext fun k => (h2 k).2.1
    unfold columnC
    simp only [Channel.velocity, asVel, this]
    rfl
  rw [e]
  exact h

open Classical in
/-- C115 for Coupled and CoupledRK3 (standard and vortex forms of the convection, for which C98 holds): what the demo prints. -/
theorem C115_coupled (nu Re : ℝ) (hnu : 0 < nu) (hRe : 0 < Re) (m : ℕ) (hm : 0 < m) : ∃ (C : ℝ) (eta : ℕ → ℝ), 0 ≤ C ∧
    (∀ r : ℝ, Tendsto (fun n => r ^ n * eta n) atTop (𝓝 0)) ∧
    ∀ (q : Quad) (n : ℕ) (N M : Fin 2 → ℕ) (L : Fin 2 → ℝ) (hN : ∀ i, 0 < N i) (kind : Channel.ConvKind)
      (c : Coupled.Ctx (RModes N) (Fin (n + 2) → ℂ) (Fin (n + 4) → ℂ) (Fin (n + 4) → ℂ)) (d : Channel.Ctx (RModes N) (Fin n → ℂ) (Fin (n + 2) → ℂ)),
      Setup q n M L hN c d kind → (∀ i, N i ≤ M i) → c.nu = nu → c.dt ≤ 1 → c.Sk1 c.G.zero = set_Source (scalarProduct q (n + 4) phi) Re →
      (∀ solve, Solves c (2 / c.nu / c.dt) (2 / c.nu) (rest n) (pinFirst n) (pinLast n) solve → ∀ (i : ℕ) (p : Periodic.Grid N),
        printedError (fun j => quadPoint q (n + 4) j) (columnC q n ((tick c solve id)^[i] startC).U p) nu Re (i * c.dt) m ≤
          1 / (nu * Re) / (2 * π ^ 3 * m ^ 2) + C * c.dt ^ 2 + eta n) ∧
      (∀ solve, (∀ rk, Solves c (2 / c.nu / c.dt / Coupled.rkG rk) (2 / c.nu / Coupled.rkG rk) (rest n) (pinFirst n) (pinLast n) (solve rk)) →
        ∀ (i : ℕ) (p : Periodic.Grid N),
        printedError (fun j => quadPoint q (n + 4) j) (columnC q n ((tick3 c solve id)^[i] startC3).U p) nu Re (i * c.dt) m ≤
          1 / (nu * Re) / (2 * π ^ 3 * m ^ 2) + C * c.dt ^ 2 + eta n) := by
  refine ⟨timeConst nu Re m, spaceErr nu Re m, timeConst_nonneg nu Re m, spaceErr_tendsto nu Re m, ?_⟩
  rintro q n N M L hN kind c d S hNM rfl hdt1 hSk
  exact ⟨fun solve hs i p => (coupled_close S hNM hRe hSk hdt1 hm solve hs i p).printed hnu hRe,
    fun solve hs i p => (coupledrk3_close S hNM hRe hSk hdt1 hm solve hs i p).printed hnu hRe⟩

/-- The demo with Coupled, `dt = 0.5`, on 64 x 32 x 4 points: the settings exist, with a linear solver. -/
example : ∃ (c : Coupled.Ctx (RModes ![32, 4]) (Fin (60 + 2) → ℂ) (Fin (60 + 4) → ℂ) (Fin (60 + 4) → ℂ)) (d : _) (solve : _),
    Setup .GL 60 ![48, 6] ![2 * π, 4 * π / 3] (by decide : ∀ i, 0 < (![32, 4] : Fin 2 → ℕ) i) c d .vortex ∧ c.nu = 1 / 800 ∧ c.dt = 1 / 2 ∧
    c.Sk1 c.G.zero = set_Source (scalarProduct .GL (60 + 4) phi) 800 ∧
    Solves c (2 / c.nu / c.dt) (2 / c.nu) (rest 60) (pinFirst 60) (pinLast 60) solve := by
  have hN : ∀ i, 0 < (![32, 4] : Fin 2 → ℕ) i := by decide
  have hL : ∀ i : Fin 2, (![2 * π, 4 * π / 3] : Fin 2 → ℝ) i ≠ 0 := fun i => by
    have := pi_pos
    fin_cases i <;> simp [this.ne']
  let G := Channel.waveGrid ![32, 4] ![2 * π, 4 * π / 3] hN
  let c : Coupled.Ctx (RModes ![32, 4]) (Fin (60 + 2) → ℂ) (Fin (60 + 4) → ℂ) (Fin (60 + 4) → ℂ) :=
    { nu := 1 / 800, dt := 1 / 2, G := G, M := Coupled.chebMats .GL 60, mask := none,
      conv := fun U => Channel.convectionCoupled .vortex (Coupled.chebWall .GL 60) (rspace ![32, 4] ![48, 6]) G (asVel U),
      Sk1 := fun k => if k = G.zero then set_Source (scalarProduct .GL (60 + 4) phi) 800 else 0 }
  let d : Channel.Ctx (RModes ![32, 4]) (Fin 60 → ℂ) (Fin (60 + 2) → ℂ) :=
    { nu := 1 / 800, dt := 1 / 2, G := G, M := Channel.chebMats .GL 60, mask := none,
      conv := Channel.convection .vortex (Channel.chebWall .GL 60) (rspace ![32, 4] ![48, 6]) G, Sk := set_Source (scalarProduct .GL (60 + 4) phi) 800 }
  obtain ⟨solve, hs, -⟩ := Coupled.C97_coupled .GL hN hL c rfl rfl (by norm_num [c]) (by norm_num [c])
  have h0 : c.Sk1 c.G.zero = set_Source (scalarProduct .GL (60 + 4) phi) 800 := by
    dsimp only [c]
    rw [if_pos rfl]
  exact ⟨c, d, solve, ⟨hL, rfl, rfl, rfl, rfl, rfl, rfl, by norm_num [c], by norm_num [c], rfl,
    fun k hk => if_neg hk, h0.symm, Or.inr rfl, rfl, rfl⟩, rfl, rfl, h0, hs⟩

end SpectralDNS.Laminar

import Verif.Lemmas.RetainedCoupled
import Verif.Props.TwoThirdsWall
import Verif.Props.CoupledCheb

/-!
# C123 for the coupled channel solvers
-/

namespace SpectralDNS.Coupled

open Periodic Spec Dealias Channel

variable {N cut : Fin 2 → ℕ} {q : Quad} {n : ℕ} {both masked masked' : Bool} {L : Fin 2 → ℝ} {hN : ∀ i, 0 < N i} {nu dt : ℝ} {kind : ConvKind}
  {Sk1 : RModes N → Fin (n + 2) → ℂ} {Sk1' : RModes (meshOf cut) → Fin (n + 2) → ℂ}

theorem direct_below (h3 : ∀ i, 3 * cut i < N i) (h : ∀ i, 2 * cut i < N i) (hS : SameColumns Sk1 Sk1') :
    Below (coupledCtx q n (directSpace N cut both) masked L hN nu dt kind Sk1)
      (coupledCtx q n (rspace (meshOf cut) fun i => padded (meshOf cut i)) masked' L (mesh_pos cut) nu dt kind Sk1') (up h) where
  nu := rfl
  dt := rfl
  G := waveGrid_up h L hN
  M := rfl
  mask := (Channel.direct_below (q := q) (n := n) (both := both) (masked := masked) (masked' := masked') (L := L) (hN := hN) (nu := nu) (dt := dt) (kind := kind) (Sk := 0) h3 h).mask
  conv U := by
    have := retains_coupled (direct_retains h3 h both) (chebWall q n) (waveGrid N L hN) (waveGrid (meshOf cut) L (mesh_pos cut)).zero (asVel U) kind
    rwa [← waveGrid_up h L hN] at this
  Sk1 := (sameColumns_iff h _ _).1 hS
  zero := zero_up h hN
  inj := up_injective h

/-- **C123 (Coupled).**  Velocity and pressure at the retained modes are those of the 3/2-rule on the mesh of the retained modes. -/
theorem C123_coupled (h3 : ∀ i, 3 * cut i < N i) (hL : ∀ i, L i ≠ 0) (hnu : 0 < nu) (hdt : 0 < dt) (hS : SameColumns Sk1 Sk1')
    (c : Ctx (RModes N) (Fin (n + 2) → ℂ) (Fin (n + 4) → ℂ) (Fin (n + 4) → ℂ)) (hc : c = coupledCtx q n (directSpace N cut both) masked L hN nu dt kind Sk1)
    (c' : Ctx (RModes (meshOf cut)) (Fin (n + 2) → ℂ) (Fin (n + 4) → ℂ) (Fin (n + 4) → ℂ))
    (hc' : c' = coupledCtx q n (rspace (meshOf cut) fun i => padded (meshOf cut i)) masked' L (mesh_pos cut) nu dt kind Sk1') (solve solve')
    (hs : Solves c (2 / nu / dt) (2 / nu) (rest n) (pinFirst n) (pinLast n) solve) (hs' : Solves c' (2 / nu / dt) (2 / nu) (rest n) (pinFirst n) (pinLast n) solve')
    (s : St (RModes N) (Fin (n + 2) → ℂ) (Fin (n + 4) → ℂ)) (s' : St (RModes (meshOf cut)) (Fin (n + 2) → ℂ) (Fin (n + 4) → ℂ)) (hU : SameVec s.U s'.U) (hH : SameVec s.H1 s'.H1) (m : ℕ) :
    let y := (tick c solve id)^[m] s
    let y' := (tick c' solve' id)^[m] s'
    SameVec y.U y'.U ∧ (0 < m → SameColumns y.pr y'.pr) := by
  have h := twice_lt h3
  subst hc hc'
  have S := direct_below (q := q) (n := n) (both := both) (masked := masked) (masked' := masked') (L := L) (hN := hN) (nu := nu) (dt := dt) (kind := kind) h3 h hS
  have hsb := S.solves hs hs' (C97_unique q _ rfl (fun k => waveGrid_zero (meshOf cut) L (mesh_pos cut) hL k) _ _ (by positivity) (by positivity))
  rw [sameVec_iff h] at hU hH
  simp only [sameVec_iff h, sameColumns_iff h]
  cases m with
  | zero => exact ⟨hU, fun hm => absurd hm (lt_irrefl 0)⟩
  | succ m =>
    have e : tick (coupledCtx q n (rspace (meshOf cut) fun i => padded (meshOf cut i)) masked' L (mesh_pos cut) nu dt kind Sk1') solve' id s' =
        (tick (coupledCtx q n (directSpace N cut both) masked L hN nu dt kind Sk1) solve id s).pull (up h) := by
      rw [← S.tick hsb]
      obtain ⟨U', pr', H', H0', H1', U0', pr0'⟩ := s'
      simp only at hU hH
      subst hU hH
      rfl
    rw [Function.iterate_succ_apply, Function.iterate_succ_apply, e, pull_iterate (St.pull (up h)) fun s => S.tick hsb s]
    exact ⟨rfl, fun _ => rfl⟩

/-- The first substep does not use what the previous step has left behind. -/
theorem substep_first {κ D P R : Type*} [AddCommGroup D] [Module ℂ D] [AddCommGroup P] [Module ℂ P] [AddCommGroup R] [Module ℂ R]
    (c : Ctx κ D P R) (solve) (s t : St3 κ D P) (hU : s.U = t.U) : substep c solve 0 s = substep c solve 0 t := by
  obtain ⟨U, pr, H, hv⟩ := s
  obtain ⟨U', pr', H', hv'⟩ := t
  subst hU
  have h0 : rkB 0 = 0 := rfl
  simp only [substep, computeRHS3, h0, Complex.ofReal_zero, zero_smul]

/-- **C123 (CoupledRK3).** -/
theorem C123_coupledrk3 (h3 : ∀ i, 3 * cut i < N i) (hL : ∀ i, L i ≠ 0) (hnu : 0 < nu) (hdt : 0 < dt) (hS : SameColumns Sk1 Sk1')
    (c : Ctx (RModes N) (Fin (n + 2) → ℂ) (Fin (n + 4) → ℂ) (Fin (n + 4) → ℂ)) (hc : c = coupledCtx q n (directSpace N cut both) masked L hN nu dt kind Sk1)
    (c' : Ctx (RModes (meshOf cut)) (Fin (n + 2) → ℂ) (Fin (n + 4) → ℂ) (Fin (n + 4) → ℂ))
    (hc' : c' = coupledCtx q n (rspace (meshOf cut) fun i => padded (meshOf cut i)) masked' L (mesh_pos cut) nu dt kind Sk1') (solve solve')
    (hs : ∀ rk, Solves c (2 / nu / dt / (rkA rk + rkB rk)) (2 / nu / (rkA rk + rkB rk)) (rest n) (pinFirst n) (pinLast n) (solve rk))
    (hs' : ∀ rk, Solves c' (2 / nu / dt / (rkA rk + rkB rk)) (2 / nu / (rkA rk + rkB rk)) (rest n) (pinFirst n) (pinLast n) (solve' rk))
    (s : St3 (RModes N) (Fin (n + 2) → ℂ) (Fin (n + 4) → ℂ)) (s' : St3 (RModes (meshOf cut)) (Fin (n + 2) → ℂ) (Fin (n + 4) → ℂ)) (hU : SameVec s.U s'.U) (m : ℕ) :
    let y := (tick3 c solve id)^[m] s
    let y' := (tick3 c' solve' id)^[m] s'
    SameVec y.U y'.U ∧ (0 < m → SameColumns y.pr y'.pr) := by
  have h := twice_lt h3
  subst hc hc'
  have S := direct_below (q := q) (n := n) (both := both) (masked := masked) (masked' := masked') (L := L) (hN := hN) (nu := nu) (dt := dt) (kind := kind) h3 h hS
  have hg : ∀ rk, 0 < rkA rk + rkB rk := fun rk => by fin_cases rk <;> norm_num [rkA, rkB]
  have hsb := fun rk => S.solves (hs rk) (hs' rk) (C97_unique q _ rfl (fun k => waveGrid_zero (meshOf cut) L (mesh_pos cut) hL k) _ _ (by have := hg rk; positivity) (by have := hg rk; positivity))
  rw [sameVec_iff h] at hU
  simp only [sameVec_iff h, sameColumns_iff h]
  cases m with
  | zero => exact ⟨hU, fun hm => absurd hm (lt_irrefl 0)⟩
  | succ m =>
    have e : tick3 (coupledCtx q n (rspace (meshOf cut) fun i => padded (meshOf cut i)) masked' L (mesh_pos cut) nu dt kind Sk1') solve' id s' =
        (tick3 (coupledCtx q n (directSpace N cut both) masked L hN nu dt kind Sk1) solve id s).pull (up h) := by
      rw [← S.tick3 hsb]
      unfold tick3 integrate3
      rw [substep_first _ _ s' (s.pull (up h)) hU]
    rw [Function.iterate_succ_apply, Function.iterate_succ_apply, e, pull_iterate (St3.pull (up h)) fun s => S.tick3 hsb s]
    exact ⟨rfl, fun _ => rfl⟩

/-- The meshes of the example for KMM: any velocity, with the solves that exist by C97. -/
example (U : Vel (RModes (n := 1) ![12, 12]) (Fin 5 → ℂ)) (hN : ∀ i, 0 < (![12, 12] : Fin 2 → ℕ) i) :
    ∃ U' : Vel (RModes (meshOf (n := 1) ![3, 3])) (Fin 5 → ℂ), SameVec U U' ∧
      let c := coupledCtx .GC 3 (directSpace ![12, 12] ![3, 3] true) true ![1, 2] hN (1 / 100) (1 / 10) .vortex 1
      let c' := coupledCtx .GC 3 (rspace (meshOf ![3, 3]) fun i => padded (meshOf (n := 1) ![3, 3] i)) true ![1, 2] (mesh_pos ![3, 3]) (1 / 100) (1 / 10) .vortex 1
      ∃ solve solve', Solves c (2 / c.nu / c.dt) (2 / c.nu) (rest 3) (pinFirst 3) (pinLast 3) solve ∧ Solves c' (2 / c'.nu / c'.dt) (2 / c'.nu) (rest 3) (pinFirst 3) (pinLast 3) solve' ∧
        ∀ m : ℕ, SameVec ((tick c solve id)^[m] ⟨U, 0, ⟨0, 0, 0⟩, ⟨0, 0, 0⟩, c.conv U, U, 0⟩).U ((tick c' solve' id)^[m] ⟨U', 0, ⟨0, 0, 0⟩, ⟨0, 0, 0⟩, c'.conv U', U', 0⟩).U := by
  have h3 : ∀ i, 3 * (![3, 3] : Fin 2 → ℕ) i < (![12, 12] : Fin 2 → ℕ) i := fun i => by fin_cases i <;> decide
  have hL : ∀ i, (![1, 2] : Fin 2 → ℝ) i ≠ 0 := fun i => by fin_cases i <;> norm_num
  have hS : SameColumns (V := Fin 5 → ℂ) (1 : RModes (n := 1) ![12, 12] → Fin 5 → ℂ) (1 : RModes (meshOf (n := 1) ![3, 3]) → Fin 5 → ℂ) := fun _ _ _ => rfl
  obtain ⟨f, hf, -⟩ := C97_coupled .GC hN hL (coupledCtx .GC 3 (directSpace ![12, 12] ![3, 3] true) true ![1, 2] hN (1 / 100) (1 / 10) .vortex 1) rfl rfl
    (by norm_num [coupledCtx]) (by norm_num [coupledCtx])
  obtain ⟨f', hf', -⟩ := C97_coupled .GC (mesh_pos ![3, 3]) hL
    (coupledCtx .GC 3 (rspace (meshOf ![3, 3]) fun i => padded (meshOf (n := 1) ![3, 3] i)) true ![1, 2] (mesh_pos ![3, 3]) (1 / 100) (1 / 10) .vortex 1) rfl rfl
    (by norm_num [coupledCtx]) (by norm_num [coupledCtx])
  have hU : SameVec U (U.pull (up (twice_lt h3))) := (sameVec_iff (twice_lt h3) _ _).2 rfl
  refine ⟨_, hU, f, f', hf, hf', fun m => (C123_coupled h3 hL (by norm_num) (by norm_num) hS _ rfl _ rfl f f' hf hf' _ _ hU ?_ m).1⟩
  exact (sameVec_iff (twice_lt h3) _ _).2 ((direct_below (q := .GC) (both := true) (masked := true) (masked' := true) (L := ![1, 2]) (hN := hN) (nu := 1 / 100) (dt := 1 / 10)
    (kind := .vortex) h3 (twice_lt h3) hS).conv U)

end SpectralDNS.Coupled

import Verif.Model.DealiasWall
import Verif.Lemmas.RetainedWall
import Verif.Props.Galerkin

/-!
# C123: the channel solvers with the 2/3-rule compute the flow of the mesh of the retained modes
-/

namespace SpectralDNS.Channel

open Periodic Spec Dealias

section
variable {N cut : Fin 2 → ℕ}

theorem sameColumns_iff {V : Type*} (h : ∀ i, 2 * cut i < N i) (a : RModes N → V) (a' : RModes (meshOf cut) → V) : SameColumns a a' ↔ a' = fun k => a (up h k) := by
  constructor
  · intro hs
    funext k
    exact (hs (up h k) k (waves_up h k)).symm
  · rintro rfl k k' hk
    exact congrArg a (waves_inj _ _ _ fun i => by rw [waves_up, hk])

/-- Two velocity fields have the same coefficients at the wavenumber pairs which both meshes store. -/
def SameVel {N N' : Fin 2 → ℕ} {B D : Type*} (U : Vel (RModes N) B D) (U' : Vel (RModes N') B D) : Prop :=
  SameColumns U.u U'.u ∧ SameColumns U.v U'.v ∧ SameColumns U.w U'.w

/-- Two temperature fields have the same coefficients at the wavenumber pairs which both meshes store. -/
def SameTemp {N N' : Fin 2 → ℕ} {D : Type*} (t : Temp (RModes N) D) (t' : Temp (RModes N') D) : Prop :=
  SameColumns t.d t'.d ∧ SameColumns t.p t'.p ∧ SameColumns t.q t'.q

theorem sameVel_iff {B D : Type*} (h : ∀ i, 2 * cut i < N i) (U : Vel (RModes N) B D) (U' : Vel (RModes (meshOf cut)) B D) : SameVel U U' ↔ U' = U.pull (up h) := by
  rw [SameVel, sameColumns_iff h, sameColumns_iff h, sameColumns_iff h, Vel.ext_iff]
  rfl

theorem sameTemp_iff {D : Type*} (h : ∀ i, 2 * cut i < N i) (t : Temp (RModes N) D) (t' : Temp (RModes (meshOf cut)) D) : SameTemp t t' ↔ t' = t.pull (up h) := by
  rw [SameTemp, sameColumns_iff h, sameColumns_iff h, sameColumns_iff h, Temp.ext_iff]
  rfl

theorem twice_lt (h3 : ∀ i, 3 * cut i < N i) (i : Fin 2) : 2 * cut i < N i := by have := h3 i; omega

theorem mesh_pos (cut : Fin 2 → ℕ) (i : Fin 2) : 0 < meshOf cut i := Nat.succ_pos _

theorem direct_retains (h3 : ∀ i, 3 * cut i < N i) (h : ∀ i, 2 * cut i < N i) (both : Bool) :
    Retains (directSpace N cut both) (rspace (meshOf cut) fun i => padded (meshOf cut i)) (up h) where
  add := directSpace_additive N cut both
  add' := dft_additive _ _
  product a b k := (congrFun ((direct_carries h3 h both false 0 none rfl).product a b) k).symm

theorem waveGrid_up (h : ∀ i, 2 * cut i < N i) (L : Fin 2 → ℝ) (hN : ∀ i, 0 < N i) :
    waveGrid (meshOf cut) L (mesh_pos cut) = (waveGrid N L hN).pull (up h) (waveGrid (meshOf cut) L (mesh_pos cut)).zero := by
  have e : ∀ i k, scaledWaves (meshOf cut) L i k = scaledWaves N L i (up h k) := fun i k => by simp only [scaledWaves, waves_up]
  simp only [waveGrid, Grid.pull, Grid.mk.injEq]
  exact ⟨_root_.funext (e 0), _root_.funext (e 1), _root_.funext (e 0), _root_.funext (e 1), trivial⟩

variable {q qT : Quad} {n : ℕ} {both masked masked' : Bool} {L : Fin 2 → ℝ} {hN : ∀ i, 0 < N i} {nu dt kappa : ℝ} {kind : ConvKind} {Sk : Fin (n + 2) → ℂ} {bc : ℝ × ℝ}

theorem zero_up (h : ∀ i, 2 * cut i < N i) (hN : ∀ i, 0 < N i) : up h (waveGrid (meshOf cut) L (mesh_pos cut)).zero = (waveGrid N L hN).zero := by
  refine waves_inj _ _ _ fun i => ?_
  rw [waves_up]
  have e : ∀ (N : Fin 2 → ℕ) (hN : ∀ i, 0 < N i), waves N i (waveGrid N L hN).zero = 0 := fun N hN => by
    have h0 : (((waveGrid N L hN).zero i : Fin _) : ℕ) = 0 := rfl
    have := hN i
    simp only [waves, h0]
    split_ifs <;> simp
  rw [e, e]

theorem mask_up {D : Type*} [AddCommGroup D] [Module ℂ D] (h : ∀ i, 2 * cut i < N i) (a : RModes N → D) :
    maskT (nyquist (meshOf cut) masked') (fun k => a (up h k)) = fun k => maskT (nyquist N masked) a (up h k) := by
  funext k
  cases masked <;> cases masked' <;> simp [maskT, nyquist, unmasked_odd, nyquistMask_up h]

theorem direct_below (h3 : ∀ i, 3 * cut i < N i) (h : ∀ i, 2 * cut i < N i) :
    Below (channelCtx q n (directSpace N cut both) masked L hN nu dt kind Sk)
      (channelCtx q n (rspace (meshOf cut) fun i => padded (meshOf cut i)) masked' L (mesh_pos cut) nu dt kind Sk) (up h) where
  nu := rfl
  dt := rfl
  G := waveGrid_up h L hN
  M := rfl
  mask H := by
    have e := fun a : RModes N → Fin (n + 2) → ℂ => mask_up (masked := masked) (masked' := masked') h a
    have h0 := e H.c0
    have h1 := e H.c1
    have h2 := e H.c2
    cases masked <;> cases masked' <;> exact Vec.ext h0 h1 h2
  conv U g := by
    have := (direct_retains h3 h both).conv (chebWall q n) (waveGrid N L hN) (waveGrid (meshOf cut) L (mesh_pos cut)).zero U g kind
    rwa [← waveGrid_up h L hN] at this
  Sk := rfl
  zero := zero_up h hN
  inj := up_injective h

theorem direct_belowRB (h3 : ∀ i, 3 * cut i < N i) (h : ∀ i, 2 * cut i < N i) :
    BelowRB (channelRB bc q qT n (directSpace N cut both) masked L hN nu kappa dt kind Sk)
      (channelRB bc q qT n (rspace (meshOf cut) fun i => padded (meshOf cut i)) masked' L (mesh_pos cut) nu kappa dt kind Sk) (up h) where
  base := direct_below h3 h
  maskT a := mask_up h a
  kappa := rfl
  e0 := rfl
  e1 := rfl
  btt0 := rfl
  btt1 := rfl
  prodB := (direct_retains h3 h both).prodB q n
  prodD := (direct_retains h3 h both).prodD q n
  bcp := by
    funext k
    show (if k = (waveGrid (meshOf cut) L (mesh_pos cut)).zero then _ else _) = if up h k = (waveGrid N L hN).zero then _ else _
    simp only [← zero_up h hN, (up_injective h).eq_iff]
  bcq := by
    funext k
    show (if k = (waveGrid (meshOf cut) L (mesh_pos cut)).zero then _ else _) = if up h k = (waveGrid N L hN).zero then _ else _
    simp only [← zero_up h hN, (up_injective h).eq_iff]
  ADDR := rfl
  BDDR := rfl
  ADDT := rfl
  BDDT := rfl

theorem vorticity_up {B D : Type*} [AddCommGroup B] [Module ℂ B] [AddCommGroup D] [Module ℂ D] (h : ∀ i, 2 * cut i < N i) (hN : ∀ i, 0 < N i) (U : Vel (RModes N) B D) :
    vorticity (waveGrid (meshOf cut) L (mesh_pos cut)) (U.pull (up h)) = fun k => vorticity (waveGrid N L hN) U (up h k) := by
  rw [waveGrid_up h L hN]
  rfl

/-- Iterates of two steps which agree on the retained modes. -/
theorem pull_iterate {A A' : Type*} (p : A → A') {f : A → A} {f' : A' → A'} (h : ∀ s, f' (p s) = p (f s)) (m : ℕ) (s : A) : f'^[m] (p s) = p (f^[m] s) :=
  (Function.Semiconj.iterate_right (fun s => (h s).symm) m s).symm

/-- **C123 (KMM).**  With the 2/3-rule KMM computes, at the retained modes, what it computes with the 3/2-rule on the mesh that has only these modes: started from two levels whose
retained coefficients agree, with the convection and the vorticity of these, whatever the other coefficients are, they agree after every number of steps. -/
theorem C123_kmm (h3 : ∀ i, 3 * cut i < N i) (la : LA (RModes N) (Fin n → ℂ) (Fin (n + 2) → ℂ)) (la' : LA (RModes (meshOf cut)) (Fin n → ℂ) (Fin (n + 2) → ℂ))
    (c : Ctx (RModes N) (Fin n → ℂ) (Fin (n + 2) → ℂ)) (hc : c = channelCtx q n (directSpace N cut both) masked L hN nu dt kind Sk)
    (c' : Ctx (RModes (meshOf cut)) (Fin n → ℂ) (Fin (n + 2) → ℂ))
    (hc' : c' = channelCtx q n (rspace (meshOf cut) fun i => padded (meshOf cut i)) masked' L (mesh_pos cut) nu dt kind Sk)
    (hla : la.Solves nu dt c.G c.M) (hla' : la'.Solves nu dt c'.G c'.M) (s : St (RModes N) (Fin n → ℂ) (Fin (n + 2) → ℂ)) (s' : St (RModes (meshOf cut)) (Fin n → ℂ) (Fin (n + 2) → ℂ))
    (hg : s.g = vorticity c.G s.U) (hg' : s'.g = vorticity c'.G s'.U) (hH : s.H1 = c.conv s.U0 (vorticity c.G s.U0)) (hH' : s'.H1 = c'.conv s'.U0 (vorticity c'.G s'.U0))
    (hU : SameVel s.U s'.U) (hU0 : SameVel s.U0 s'.U0) (m : ℕ) :
    SameVel ((tick c la id)^[m] s).U ((tick c' la' id)^[m] s').U ∧ SameColumns ((tick c la id)^[m] s).g ((tick c' la' id)^[m] s').g := by
  have h := twice_lt h3
  subst hc hc'
  have S := direct_below (q := q) (n := n) (both := both) (masked := masked) (masked' := masked') (L := L) (hN := hN) (nu := nu) (dt := dt) (kind := kind) (Sk := Sk) h3 h
  rw [sameVel_iff h] at hU hU0
  have e1 : s'.g = fun k => s.g (up h k) := by rw [hg', hU, hg]; exact vorticity_up h hN s.U
  have e2 : s'.H1 = s.H1.pull (up h) := by
    rw [hH', hU0, hH, ← S.conv]
    exact congrArg _ (vorticity_up h hN s.U0)
  have e3 : la' = la.pull (up h) := S.la hla hla'
  subst e3
  rw [sameVel_iff h, sameColumns_iff h]
  cases m with
  | zero => exact ⟨hU, e1⟩
  | succ m =>
    have e : tick (channelCtx q n (rspace (meshOf cut) fun i => padded (meshOf cut i)) masked' L (mesh_pos cut) nu dt kind Sk) (la.pull (up h)) id s' =
        (tick (channelCtx q n (directSpace N cut both) masked L hN nu dt kind Sk) la id s).pull (up h) := by
      rw [← S.tick]
      obtain ⟨U', g', H', H0', H1', U0'⟩ := s'
      simp only at hU hU0 e1 e2
      subst hU hU0 e1 e2
      rfl
    rw [Function.iterate_succ_apply, Function.iterate_succ_apply, e, pull_iterate (St.pull (up h)) fun s => S.tick la s]
    exact ⟨rfl, rfl⟩

/-- The first substep does not use what the previous step has left behind. -/
theorem substep_start {κ B D : Type*} [DecidableEq κ] [AddCommGroup B] [Module ℂ B] [AddCommGroup D] [Module ℂ D] (c : Ctx κ B D) (la : Fin 3 → LA κ B D) (s t : St3 κ B D)
    (hU : s.U = t.U) (hg : s.g = t.g) : substep c la 0 s = substep c la 0 t := by
  obtain ⟨U, g, H, hv, hg, a, b⟩ := s
  obtain ⟨U', g', H', hv', hg', a', b'⟩ := t
  subst hU hg
  have h0 : rkB 0 = 0 := rfl
  simp only [substep, computeRHS3, solveLinear3, h0, Complex.ofReal_zero, zero_smul]

theorem substepRB_start {κ B D : Type*} [DecidableEq κ] [AddCommGroup B] [Module ℂ B] [AddCommGroup D] [Module ℂ D] (r : RBCtx κ B D) (convT) (la : Fin 3 → LA κ B D) (solveT)
    (s t : RB3St κ B D) (hU : s.s.U = t.s.U) (hg : s.s.g = t.s.g) (hphi : s.phi = t.phi) : substepRB r convT la solveT 0 s = substepRB r convT la solveT 0 t := by
  obtain ⟨⟨U, g, H, hv, hg, a, b⟩, phi, N⟩ := s
  obtain ⟨⟨U', g', H', hv', hg', a', b'⟩, phi', N'⟩ := t
  subst hU hg hphi
  have h0 : rkB 0 = 0 := rfl
  simp only [substepRB, computeRHS3, solveLinear3, h0, Complex.ofReal_zero, zero_smul]

/-- **C123 (KMMRK3).** -/
theorem C123_kmmrk3 (h3 : ∀ i, 3 * cut i < N i) (la : Fin 3 → LA (RModes N) (Fin n → ℂ) (Fin (n + 2) → ℂ)) (la' : Fin 3 → LA (RModes (meshOf cut)) (Fin n → ℂ) (Fin (n + 2) → ℂ))
    (c : Ctx (RModes N) (Fin n → ℂ) (Fin (n + 2) → ℂ)) (hc : c = channelCtx q n (directSpace N cut both) masked L hN nu dt kind Sk)
    (c' : Ctx (RModes (meshOf cut)) (Fin n → ℂ) (Fin (n + 2) → ℂ))
    (hc' : c' = channelCtx q n (rspace (meshOf cut) fun i => padded (meshOf cut i)) masked' L (mesh_pos cut) nu dt kind Sk)
    (hla : ∀ rk, (la rk).Solves3 nu dt (rkA rk + rkB rk) c.G c.M) (hla' : ∀ rk, (la' rk).Solves3 nu dt (rkA rk + rkB rk) c'.G c'.M)
    (s : St3 (RModes N) (Fin n → ℂ) (Fin (n + 2) → ℂ)) (s' : St3 (RModes (meshOf cut)) (Fin n → ℂ) (Fin (n + 2) → ℂ)) (hg : SameColumns s.g s'.g) (hU : SameVel s.U s'.U) (m : ℕ) :
    SameVel ((tick3 c la id)^[m] s).U ((tick3 c' la' id)^[m] s').U ∧ SameColumns ((tick3 c la id)^[m] s).g ((tick3 c' la' id)^[m] s').g := by
  have h := twice_lt h3
  subst hc hc'
  have S := direct_below (q := q) (n := n) (both := both) (masked := masked) (masked' := masked') (L := L) (hN := hN) (nu := nu) (dt := dt) (kind := kind) (Sk := Sk) h3 h
  rw [sameVel_iff h] at hU
  rw [sameColumns_iff h] at hg
  have e3 : la' = fun rk => (la rk).pull (up h) := _root_.funext fun rk => S.la3 (hla rk) (hla' rk)
  subst e3
  rw [sameVel_iff h, sameColumns_iff h]
  cases m with
  | zero => exact ⟨hU, hg⟩
  | succ m =>
    have e : tick3 (channelCtx q n (rspace (meshOf cut) fun i => padded (meshOf cut i)) masked' L (mesh_pos cut) nu dt kind Sk) (fun rk => (la rk).pull (up h)) id s' =
        (tick3 (channelCtx q n (directSpace N cut both) masked L hN nu dt kind Sk) la id s).pull (up h) := by
      rw [← S.tick3]
      unfold tick3 integrate3
      rw [substep_start _ _ s' (s.pull (up h)) hU hg]
    rw [Function.iterate_succ_apply, Function.iterate_succ_apply, e, pull_iterate (St3.pull (up h)) fun s => S.tick3 la s]
    exact ⟨rfl, rfl⟩

/-- The same of three components. -/
def SameVec {N N' : Fin 2 → ℕ} {D : Type*} (H : Vec (RModes N) D) (H' : Vec (RModes N') D) : Prop :=
  SameColumns H.c0 H'.c0 ∧ SameColumns H.c1 H'.c1 ∧ SameColumns H.c2 H'.c2

theorem sameVec_iff {D : Type*} (h : ∀ i, 2 * cut i < N i) (H : Vec (RModes N) D) (H' : Vec (RModes (meshOf cut)) D) : SameVec H H' ↔ H' = H.pull (up h) := by
  rw [SameVec, sameColumns_iff h, sameColumns_iff h, sameColumns_iff h, Vec.ext_iff]
  rfl

/-- **C123 (KMM_RB).**  The same for velocity and temperature: it suffices that the retained coefficients of the two levels of velocity and temperature, of the vorticity and of the previous
convection agree at the start. -/
theorem C123_kmm_rb (h3 : ∀ i, 3 * cut i < N i) (la : LA (RModes N) (Fin n → ℂ) (Fin (n + 2) → ℂ)) (la' : LA (RModes (meshOf cut)) (Fin n → ℂ) (Fin (n + 2) → ℂ))
    (r : RBCtx (RModes N) (Fin n → ℂ) (Fin (n + 2) → ℂ)) (hr : r = channelRB bc q qT n (directSpace N cut both) masked L hN nu kappa dt kind Sk)
    (r' : RBCtx (RModes (meshOf cut)) (Fin n → ℂ) (Fin (n + 2) → ℂ))
    (hr' : r' = channelRB bc q qT n (rspace (meshOf cut) fun i => padded (meshOf cut i)) masked' L (mesh_pos cut) nu kappa dt kind Sk)
    (hla : la.Solves nu dt r.c.G r.c.M) (hla' : la'.Solves nu dt r'.c.G r'.c.M) (solveT solveT') (hT : SolvesT r 1 solveT) (hT' : SolvesT r' 1 solveT')
    (s : RBSt (RModes N) (Fin n → ℂ) (Fin (n + 2) → ℂ)) (s' : RBSt (RModes (meshOf cut)) (Fin n → ℂ) (Fin (n + 2) → ℂ))
    (hU : SameVel s.s.U s'.s.U) (hU0 : SameVel s.s.U0 s'.s.U0) (hg : SameColumns s.s.g s'.s.g) (hH : SameVec s.s.H1 s'.s.H1) (h0 : SameTemp s.phi0 s'.phi0)
    (h1 : SameTemp s.phi1 s'.phi1) (m : ℕ) :
    let y := (tickRB r la solveT)^[m] s
    let y' := (tickRB r' la' solveT')^[m] s'
    SameVel y.s.U y'.s.U ∧ SameColumns y.s.g y'.s.g ∧ SameTemp y.phi0 y'.phi0 ∧ (0 < m → SameTemp y.phi y'.phi) := by
  have h := twice_lt h3
  subst hr hr'
  have S := direct_belowRB (bc := bc) (q := q) (qT := qT) (n := n) (both := both) (masked := masked) (masked' := masked') (L := L) (hN := hN) (nu := nu) (kappa := kappa) (dt := dt) (kind := kind)
    (Sk := Sk) h3 h
  rw [sameVel_iff h] at hU hU0
  rw [sameColumns_iff h] at hg
  rw [sameVec_iff h] at hH
  rw [sameTemp_iff h] at h0 h1
  have e3 : la' = la.pull (up h) := S.base.la hla hla'
  have e4 : solveT' = fun k => solveT (up h k) := S.solveT hT hT'
  subst e3 e4
  simp only [sameVel_iff h, sameColumns_iff h, sameTemp_iff h]
  cases m with
  | zero => exact ⟨hU, hg, h0, fun hm => absurd hm (lt_irrefl 0)⟩
  | succ m =>
    have e : tickRB (channelRB bc q qT n (rspace (meshOf cut) fun i => padded (meshOf cut i)) masked' L (mesh_pos cut) nu kappa dt kind Sk) (la.pull (up h)) (fun k => solveT (up h k)) s' =
        (tickRB (channelRB bc q qT n (directSpace N cut both) masked L hN nu kappa dt kind Sk) la solveT s).pull (up h) := by
      rw [← S.tick]
      obtain ⟨⟨U', g', H', H0', H1', U0'⟩, phi', phi0', phi1', N', N0'⟩ := s'
      simp only at hU hU0 hg hH h0 h1
      subst hU hU0 hg hH h0 h1
      rfl
    rw [Function.iterate_succ_apply, Function.iterate_succ_apply, e, pull_iterate (RBSt.pull (up h)) fun s => S.tick la solveT s]
    exact ⟨rfl, rfl, rfl, fun _ => rfl⟩

/-- **C123 (KMMRK3_RB).** -/
theorem C123_kmmrk3_rb (h3 : ∀ i, 3 * cut i < N i) (la : Fin 3 → LA (RModes N) (Fin n → ℂ) (Fin (n + 2) → ℂ)) (la' : Fin 3 → LA (RModes (meshOf cut)) (Fin n → ℂ) (Fin (n + 2) → ℂ))
    (r : RBCtx (RModes N) (Fin n → ℂ) (Fin (n + 2) → ℂ)) (hr : r = channelRB bc q qT n (directSpace N cut both) masked L hN nu kappa dt kind Sk)
    (r' : RBCtx (RModes (meshOf cut)) (Fin n → ℂ) (Fin (n + 2) → ℂ))
    (hr' : r' = channelRB bc q qT n (rspace (meshOf cut) fun i => padded (meshOf cut i)) masked' L (mesh_pos cut) nu kappa dt kind Sk)
    (hla : ∀ rk, (la rk).Solves3 nu dt (rkA rk + rkB rk) r.c.G r.c.M) (hla' : ∀ rk, (la' rk).Solves3 nu dt (rkA rk + rkB rk) r'.c.G r'.c.M)
    (solveT solveT') (hT : ∀ rk, SolvesT r (rkA rk + rkB rk) (solveT rk)) (hT' : ∀ rk, SolvesT r' (rkA rk + rkB rk) (solveT' rk))
    (s : RB3St (RModes N) (Fin n → ℂ) (Fin (n + 2) → ℂ)) (s' : RB3St (RModes (meshOf cut)) (Fin n → ℂ) (Fin (n + 2) → ℂ))
    (hU : SameVel s.s.U s'.s.U) (hg : SameColumns s.s.g s'.s.g) (hphi : SameTemp s.phi s'.phi) (m : ℕ) :
    let y := (integrateRB3 r (standardRB q n (chebWall q n) (directSpace N cut both) r.c.G) la solveT)^[m] s
    let y' := (integrateRB3 r' (standardRB q n (chebWall q n) (rspace (meshOf cut) fun i => padded (meshOf cut i)) r'.c.G) la' solveT')^[m] s'
    SameVel y.s.U y'.s.U ∧ SameColumns y.s.g y'.s.g ∧ SameTemp y.phi y'.phi := by
  have h := twice_lt h3
  subst hr hr'
  have S := direct_belowRB (bc := bc) (q := q) (qT := qT) (n := n) (both := both) (masked := masked) (masked' := masked') (L := L) (hN := hN) (nu := nu) (kappa := kappa) (dt := dt) (kind := kind)
    (Sk := Sk) h3 h
  rw [sameVel_iff h] at hU
  rw [sameColumns_iff h] at hg
  rw [sameTemp_iff h] at hphi
  have e3 : la' = fun rk => (la rk).pull (up h) := _root_.funext fun rk => S.base.la3 (hla rk) (hla' rk)
  have e4 : solveT' = fun rk k => solveT rk (up h k) := _root_.funext fun rk => S.solveT (hT rk) (hT' rk)
  subst e3 e4
  simp only [sameVel_iff h, sameColumns_iff h, sameTemp_iff h]
  have hconv : ∀ U phi, standardRB q n (chebWall q n) (rspace (meshOf cut) fun i => padded (meshOf cut i)) (waveGrid (meshOf cut) L (mesh_pos cut)) (Vel.pull (up h) U) (Temp.pull (up h) phi) =
      fun k => standardRB q n (chebWall q n) (directSpace N cut both) (waveGrid N L hN) U phi (up h k) := fun U phi => by
    rw [waveGrid_up h L hN]
    exact (direct_retains h3 h both).standardRB q n (chebWall q n) (waveGrid N L hN) _ U phi
  cases m with
  | zero => exact ⟨hU, hg, hphi⟩
  | succ m =>
    have e := S.integrate3 hconv la solveT s
    have e' := substepRB_start (channelRB bc q qT n (rspace (meshOf cut) fun i => padded (meshOf cut i)) masked' L (mesh_pos cut) nu kappa dt kind Sk)
      (standardRB q n (chebWall q n) (rspace (meshOf cut) fun i => padded (meshOf cut i)) (waveGrid (meshOf cut) L (mesh_pos cut))) (fun rk => (la rk).pull (up h))
      (fun rk k => solveT rk (up h k)) s' (s.pull (up h)) hU hg hphi
    rw [Function.iterate_succ_apply, Function.iterate_succ_apply]
    have e'' : integrateRB3 (channelRB bc q qT n (rspace (meshOf cut) fun i => padded (meshOf cut i)) masked' L (mesh_pos cut) nu kappa dt kind Sk)
        (standardRB q n (chebWall q n) (rspace (meshOf cut) fun i => padded (meshOf cut i)) (waveGrid (meshOf cut) L (mesh_pos cut))) (fun rk => (la rk).pull (up h))
        (fun rk k => solveT rk (up h k)) s' =
        integrateRB3 (channelRB bc q qT n (rspace (meshOf cut) fun i => padded (meshOf cut i)) masked' L (mesh_pos cut) nu kappa dt kind Sk)
        (standardRB q n (chebWall q n) (rspace (meshOf cut) fun i => padded (meshOf cut i)) (waveGrid (meshOf cut) L (mesh_pos cut))) (fun rk => (la rk).pull (up h))
        (fun rk k => solveT rk (up h k)) (s.pull (up h)) := by
      unfold integrateRB3
      rw [e']
    have key := pull_iterate (RB3St.pull (up h)) (fun s => S.integrate3 hconv la solveT s) m
      (integrateRB3 (channelRB bc q qT n (directSpace N cut both) masked L hN nu kappa dt kind Sk) (standardRB q n (chebWall q n) (directSpace N cut both) (waveGrid N L hN)) la solveT s)
    rw [← e, ← e''] at key
    exact ⟨congrArg (fun y => y.s.U) key, congrArg (fun y => y.s.g) key, congrArg (fun y => y.phi) key⟩

end

/-- Twelve points along each periodic direction, of which the wavenumbers up to three are retained, and seven points between the walls: any start `U` on this mesh, with the linear
solvers that exist by C75, meets the hypotheses together with its retained part on the mesh with seven points. -/
example (U : Vel (RModes (n := 1) ![12, 12]) (Fin 3 → ℂ) (Fin 5 → ℂ)) (Sk : Fin 5 → ℂ) (hN : ∀ i, 0 < (![12, 12] : Fin 2 → ℕ) i) :
    ∃ (la : LA (RModes (n := 1) ![12, 12]) (Fin 3 → ℂ) (Fin 5 → ℂ)) (la' : LA (RModes (meshOf (n := 1) ![3, 3])) (Fin 3 → ℂ) (Fin 5 → ℂ))
      (U' : Vel (RModes (meshOf (n := 1) ![3, 3])) (Fin 3 → ℂ) (Fin 5 → ℂ)), SameVel U U' ∧
      let c := channelCtx .GC 3 (directSpace ![12, 12] ![3, 3] false) true ![1, 2] hN (1 / 100) (1 / 10) .vortex Sk
      let c' := channelCtx .GC 3 (rspace (meshOf ![3, 3]) fun i => padded (meshOf (n := 1) ![3, 3] i)) true ![1, 2] (mesh_pos ![3, 3]) (1 / 100) (1 / 10) .vortex Sk
      let start := fun {κ : Type} (c : Ctx κ (Fin 3 → ℂ) (Fin 5 → ℂ)) U =>
        (⟨U, vorticity c.G U, ⟨0, 0, 0⟩, ⟨0, 0, 0⟩, c.conv U (vorticity c.G U), U⟩ : St κ (Fin 3 → ℂ) (Fin 5 → ℂ))
      la.Solves c.nu c.dt c.G c.M ∧ la'.Solves c'.nu c'.dt c'.G c'.M ∧ ∀ m : ℕ, SameVel ((tick c la id)^[m] (start c U)).U ((tick c' la' id)^[m] (start c' U')).U := by
  have h3 : ∀ i, 3 * (![3, 3] : Fin 2 → ℕ) i < (![12, 12] : Fin 2 → ℕ) i := fun i => by fin_cases i <;> decide
  obtain ⟨la, hla, -⟩ := Galerkin.C75_kmm .GC 3 (waveGrid ![12, 12] ![1, 2] hN) (1 / 100) (1 / 10) (by norm_num) (by norm_num)
  obtain ⟨la', hla', -⟩ := Galerkin.C75_kmm .GC 3 (waveGrid (meshOf ![3, 3]) ![1, 2] (mesh_pos ![3, 3])) (1 / 100) (1 / 10) (by norm_num) (by norm_num)
  have hU : SameVel U (U.pull (up (twice_lt h3))) := (sameVel_iff (twice_lt h3) _ _).2 rfl
  exact ⟨la, la', U.pull (up (twice_lt h3)), hU, hla, hla', fun m => (C123_kmm h3 la la' _ rfl _ rfl hla hla' _ _ rfl rfl rfl rfl hU hU m).1⟩

/-- The temperature on the meshes above. -/
example (t : Temp (RModes (n := 1) ![12, 12]) (Fin 5 → ℂ)) (hN : ∀ i, 0 < (![12, 12] : Fin 2 → ℕ) i) :
    ∃ (la : LA (RModes (n := 1) ![12, 12]) (Fin 3 → ℂ) (Fin 5 → ℂ)) (la' : LA (RModes (meshOf (n := 1) ![3, 3])) (Fin 3 → ℂ) (Fin 5 → ℂ))
      (t' : Temp (RModes (meshOf (n := 1) ![3, 3])) (Fin 5 → ℂ)), SameTemp t t' ∧
      let r := channelRB (0, 1) .GC .GL 3 (directSpace ![12, 12] ![3, 3] true) true ![1, 2] hN (1 / 100) (1 / 50) (1 / 10) .standard 0
      let r' := channelRB (0, 1) .GC .GL 3 (rspace (meshOf ![3, 3]) fun i => padded (meshOf (n := 1) ![3, 3] i)) true ![1, 2] (mesh_pos ![3, 3]) (1 / 100) (1 / 50) (1 / 10) .standard 0
      let start := fun {κ : Type} (t : Temp κ (Fin 5 → ℂ)) =>
        (⟨⟨⟨0, 0, 0⟩, 0, ⟨0, 0, 0⟩, ⟨0, 0, 0⟩, ⟨0, 0, 0⟩, ⟨0, 0, 0⟩⟩, t, t, t, 0, 0⟩ : RBSt κ (Fin 3 → ℂ) (Fin 5 → ℂ))
      ∃ solveT solveT', ∀ m : ℕ, SameVel ((tickRB r la solveT)^[m] (start t)).s.U ((tickRB r' la' solveT')^[m] (start t')).s.U ∧
        SameTemp ((tickRB r la solveT)^[m] (start t)).phi0 ((tickRB r' la' solveT')^[m] (start t')).phi0 := by
  have h3 : ∀ i, 3 * (![3, 3] : Fin 2 → ℕ) i < (![12, 12] : Fin 2 → ℕ) i := fun i => by fin_cases i <;> decide
  obtain ⟨la, hla, -⟩ := Galerkin.C75_kmm .GC 3 (waveGrid ![12, 12] ![1, 2] hN) (1 / 100) (1 / 10) (by norm_num) (by norm_num)
  obtain ⟨la', hla', -⟩ := Galerkin.C75_kmm .GC 3 (waveGrid (meshOf ![3, 3]) ![1, 2] (mesh_pos ![3, 3])) (1 / 100) (1 / 10) (by norm_num) (by norm_num)
  have ht : SameTemp t (t.pull (up (twice_lt h3))) := (sameTemp_iff (twice_lt h3) _ _).2 rfl
  obtain ⟨solveT, hT, -⟩ := Galerkin.C75_rb .GC 3 (channelRB (0, 1) .GC .GL 3 (directSpace ![12, 12] ![3, 3] true) true ![1, 2] hN (1 / 100) (1 / 50) (1 / 10) .standard 0) rfl rfl
    (by norm_num [channelRB, chebRB]) (by norm_num [channelRB, chebRB, channelCtx]) 1 (Or.inl rfl)
  obtain ⟨solveT', hT', -⟩ := Galerkin.C75_rb .GC 3 (channelRB (0, 1) .GC .GL 3 (rspace (meshOf ![3, 3]) fun i => padded (meshOf (n := 1) ![3, 3] i)) true ![1, 2] (mesh_pos ![3, 3])
    (1 / 100) (1 / 50) (1 / 10) .standard 0) rfl rfl (by norm_num [channelRB, chebRB]) (by norm_num [channelRB, chebRB, channelCtx]) 1 (Or.inl rfl)
  have hz : ∀ {V : Type} [Zero V], SameColumns (V := V) (0 : RModes (n := 1) ![12, 12] → V) (0 : RModes (meshOf (n := 1) ![3, 3]) → V) := fun _ _ _ => rfl
  refine ⟨la, la', t.pull (up (twice_lt h3)), ht, solveT, solveT', fun m => ?_⟩
  have := C123_kmm_rb h3 la la' _ rfl _ rfl hla hla' solveT solveT' hT hT' ⟨⟨⟨0, 0, 0⟩, 0, ⟨0, 0, 0⟩, ⟨0, 0, 0⟩, ⟨0, 0, 0⟩, ⟨0, 0, 0⟩⟩, t, t, t, 0, 0⟩
    ⟨⟨⟨0, 0, 0⟩, 0, ⟨0, 0, 0⟩, ⟨0, 0, 0⟩, ⟨0, 0, 0⟩, ⟨0, 0, 0⟩⟩, t.pull (up (twice_lt h3)), t.pull (up (twice_lt h3)), t.pull (up (twice_lt h3)), 0, 0⟩
    ⟨hz, hz, hz⟩ ⟨hz, hz, hz⟩ hz ⟨hz, hz, hz⟩ ht ht m
  exact ⟨this.1, this.2.2.1⟩

end SpectralDNS.Channel

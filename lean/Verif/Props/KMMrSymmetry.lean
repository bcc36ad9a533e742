import Verif.Props.ChannelSymmetry
import Verif.Props.SolveKMMr

/-! # C102 for KMMr, whose walls are normal to the last axis -/

namespace SpectralDNS.Channel

section
variable {κ P Q : Type*} [DecidableEq κ] {n : ℕ} {mask : κ → Bool}

omit [DecidableEq κ] in
theorem ik_filtered {a : ℕ} {K X : κ → ℝ} (h : ∀ k, mask k = true → X k = K k) {v : κ → Fin a → ℂ} (hv : VanA mask v) : ik X v = ik K v := by
  funext k
  by_cases hk : mask k = true
  · rw [ik, ik, h k hk]
  · rw [ik, ik, hv k (by simpa using hk), smul_zero, smul_zero]

omit [DecidableEq κ] in
/-- The form `Vortex` with other wavenumbers for the masked modes. -/
theorem vortex_filtered (W : Wall (Fin n → ℂ) (Fin (n + 2) → ℂ) (Fin (n + 4) → ℂ) Q) (T : Periodic.Space κ P) {G G' : Grid κ} (h1 : ∀ k, mask k = true → G'.K1 k = G.K1 k)
    (h2 : ∀ k, mask k = true → G'.K2 k = G.K2 k) {U : Vel κ (Fin n → ℂ) (Fin (n + 2) → ℂ)} (hU : VanVel mask U) (g : κ → Fin (n + 2) → ℂ) :
    convection .vortex W T G' U g = convection .vortex W T G U g := by
  have e : ∀ G : Grid κ, (fun k => -(Complex.I * G.K1 k) • U.u k) = fun k => -ik G.K1 U.u k := fun G => by funext k; rw [ik, neg_smul]
  simp only [convection, computeCurl, e, ik_filtered h1 hU.1, ik_filtered h2 hU.1]

/-- A step with other wavenumbers `X1`, `X2` for the masked modes. -/
theorem tick_filtered (c : Ctx κ (Fin n → ℂ) (Fin (n + 2) → ℂ)) (hmask : c.mask = some fun k => if mask k then 1 else 0) (X1 X2 : κ → ℝ)
    (h1 : ∀ k, mask k = true → X1 k = c.G.X1 k) (h2 : ∀ k, mask k = true → X2 k = c.G.X2 k)
    (conv : Vel κ (Fin n → ℂ) (Fin (n + 2) → ℂ) → (κ → Fin (n + 2) → ℂ) → Vec κ (Fin (n + 2) → ℂ)) (la : LA κ (Fin n → ℂ) (Fin (n + 2) → ℂ))
    (x : St κ (Fin n → ℂ) (Fin (n + 2) → ℂ)) (hc : conv x.U x.g = c.conv x.U x.g) :
    tick { c with G := { c.G with X1 := X1, X2 := X2 }, conv := conv } la id x = tick c la id x := by
  have hv : ∀ H : Vec κ (Fin (n + 2) → ℂ), VanA mask (maskVec c.mask H).c0 ∧ VanA mask (maskVec c.mask H).c1 ∧ VanA mask (maskVec c.mask H).c2 := fun H => by
    rw [hmask, mask_keep]
    exact keepVec_van _ _
  have e : ∀ H : Vec κ (Fin (n + 2) → ℂ), VanA mask H.c0 ∧ VanA mask H.c1 ∧ VanA mask H.c2 → hvOf { c.G with X1 := X1, X2 := X2 } c.M H = hvOf c.G c.M H ∧
      hgOf { c.G with X1 := X1, X2 := X2 } c.M H = hgOf c.G c.M H := fun H hH => by
    constructor
    all_goals
      funext k
      by_cases hk : mask k = true
      · simp [hvOf, hgOf, h1 k hk, h2 k hk, Grid.Ksq]
      · have hk' : mask k = false := by simpa using hk
        simp [hvOf, hgOf, hH.1 k hk', hH.2.1 k hk', hH.2.2 k hk']
  have e' := e _ (hv (assembleAB (c.conv x.U x.g) x.H1))
  simp only [tick, advance, integrate, computeRHS, hc, e'.1, e'.2]
  rfl

end

end SpectralDNS.Channel

namespace SpectralDNS.KMMr

open Channel (Quad LA chebMats chebWall UnmaskedWall StoredWall VanVel VanA vorticity scalarProduct phi)
open Periodic Spec.Field Polynomial Dealias

variable {N M : Fin 2 → ℕ} {n : ℕ} {q : Quad} {L : Fin 2 → ℝ} {hN : ∀ i, 0 < N i} {h : Fin 2 → ℝ} {c : Ctx (RModes N) (Fin n → ℂ) (Fin (n + 2) → ℂ)}
  {r : ℤˣ} {s : Fin 2 → ℤˣ}

/-- The flow of KMMr with coefficients `U'` is the flow with coefficients `U` seen after the motion: the walls `z = -1`, `z = 1` are exchanged if `r = -1`,
`x` and `y` are reflected by `s`, then the flow is displaced by `h`. -/
def MovedVel (q : Quad) (L : Fin 2 → ℝ) (r : ℤˣ) (s : Fin 2 → ℤˣ) (h : Fin 2 → ℝ) (U U' : Vel (RModes N) (Fin n → ℂ) (Fin (n + 2) → ℂ)) : Prop :=
  ∀ x y, ∀ z ∈ Set.Icc (-1 : ℝ) 1,
    field0 q n L U' x y z = ((s 0 : ℤ) : ℝ) * field0 q n L U (((s 0 : ℤ) : ℝ) * x + h 0) (((s 1 : ℤ) : ℝ) * y + h 1) (((r : ℤ) : ℝ) * z) ∧
    field1 q n L U' x y z = ((s 1 : ℤ) : ℝ) * field1 q n L U (((s 0 : ℤ) : ℝ) * x + h 0) (((s 1 : ℤ) : ℝ) * y + h 1) (((r : ℤ) : ℝ) * z) ∧
    field2 q n L U' x y z = ((r : ℤ) : ℝ) * field2 q n L U (((s 0 : ℤ) : ℝ) * x + h 0) (((s 1 : ℤ) : ℝ) * y + h 1) (((r : ℤ) : ℝ) * z)

theorem movedVel_rot {U U' : Vel (RModes N) (Fin n → ℂ) (Fin (n + 2) → ℂ)} : MovedVel q L r s h U U' ↔ Channel.MovedVel q L r s h U.rot U'.rot :=
  ⟨fun H => ⟨fun x hx y z => (H y z x hx).2.2, fun x hx y z => (H y z x hx).1, fun x hx y z => (H y z x hx).2.1⟩,
   fun H x y z hz => ⟨H.2.1 z hz x y, H.2.2 z hz x y, H.1 z hz x y⟩⟩

theorem filteredWaves_unmasked (i : Fin 2) (k : RModes N) (hk : nyquistMask N k = true) : filteredWaves N L i k = scaledWaves N L i k := by
  rw [nyquistMask, decide_eq_true_iff] at hk
  have := hk i
  rw [filteredWaves, if_neg]
  omega

/-- The context of KMM with the wavenumbers of KMM. -/
noncomputable def Ctx.kmm (c : Ctx (RModes N) (Fin n → ℂ) (Fin (n + 2) → ℂ)) (q : Quad) (M : Fin 2 → ℕ) (L : Fin 2 → ℝ) (hN : ∀ i, 0 < N i) :
    Channel.Ctx (RModes N) (Fin n → ℂ) (Fin (n + 2) → ℂ) :=
  { nu := c.nu, dt := c.dt, G := Channel.waveGrid N L hN, M := c.M, mask := c.mask,
    conv := Channel.convection .vortex (chebWall q n) (rspace N M) (Channel.waveGrid N L hN), Sk := c.Sk0 }

theorem ChebCtx.kmm (S : ChebCtx q n M L hN c) : Channel.ChebCtx q n M L hN (c.kmm q M L hN) .vortex := ⟨S.sides, S.mats, rfl, S.visc, rfl⟩

theorem ChebCtx.conv_kmm (S : ChebCtx q n M L hN c) {U : Channel.Vel (RModes N) (Fin n → ℂ) (Fin (n + 2) → ℂ)} (hU : VanVel (nyquistMask N) U)
    (g : RModes N → Fin (n + 2) → ℂ) : c.rot.conv U g = (c.kmm q M L hN).conv U g := by
  rw [S.rot_conv, S.grid]
  exact Channel.vortex_filtered _ _ (fun k hk => filteredWaves_unmasked 0 k hk) (fun k hk => filteredWaves_unmasked 1 k hk) hU g

theorem ChebCtx.tick_kmm (S : ChebCtx q n M L hN c) (hmask : c.mask = some fun k => if nyquistMask N k then 1 else 0) (la : LA (RModes N) (Fin n → ℂ) (Fin (n + 2) → ℂ))
    (x : Channel.St (RModes N) (Fin n → ℂ) (Fin (n + 2) → ℂ)) (hx : VanVel (nyquistMask N) x.U) : Channel.tick c.rot la id x = Channel.tick (c.kmm q M L hN) la id x := by
  have e := Channel.tick_filtered (c.kmm q M L hN) (mask := nyquistMask N) hmask (filteredWaves N L 0) (filteredWaves N L 1) (fun k hk => filteredWaves_unmasked 0 k hk)
    (fun k hk => filteredWaves_unmasked 1 k hk) c.rot.conv la x (S.conv_kmm hx x.g)
  rw [← e]
  congr 1
  have hG : c.rot.G = { Channel.waveGrid N L hN with X1 := filteredWaves N L 0, X2 := filteredWaves N L 1 } := by
    show c.G.rot = _
    rw [S.grid]
    rfl
  show (⟨c.nu, c.dt, c.rot.G, c.M, c.mask, c.rot.conv, c.Sk0⟩ : Channel.Ctx _ _ _) = _
  rw [hG]
  rfl

theorem ChebCtx.run_kmm (S : ChebCtx q n M L hN c) (hmask : c.mask = some fun k => if nyquistMask N k then 1 else 0) (la : LA (RModes N) (Fin n → ℂ) (Fin (n + 2) → ℂ))
    (x : Channel.St (RModes N) (Fin n → ℂ) (Fin (n + 2) → ℂ)) (hx : ∀ m, VanVel (nyquistMask N) ((Channel.tick (c.kmm q M L hN) la id)^[m] x).U) (m : ℕ) :
    (Channel.tick c.rot la id)^[m] x = (Channel.tick (c.kmm q M L hN) la id)^[m] x := by
  induction m with
  | zero => rfl
  | succ m ih => rw [Function.iterate_succ_apply', Function.iterate_succ_apply', ih, S.tick_kmm hmask la _ (hx m)]

/-- **C102 (KMMr).**  Two runs of KMMr with the same systems, started so that velocity, previous velocity, wall-normal vorticity and the flow from which `H_hat1` was computed
are moved in the second run, and pressed by the moved source: after any number of steps the flow of the second run is the flow of the first seen after the motion.
The wavenumbers `Kx` of the convection are those with the highest frequency eliminated. -/
theorem C102_kmmr (S : ChebCtx q n M L hN c) (hmask : c.mask = some fun k => if nyquistMask N k then 1 else 0) (H : Motion N M L 1 h) (r : ℤˣ) (s : Fin 2 → ℤˣ)
    (F F' : ℝ[X]) (hF : ∀ x, F'.eval x = ((s 0 : ℤ) : ℝ) * F.eval (((r : ℤ) : ℝ) * x)) (hSk : c.Sk0 = scalarProduct q (n + 4) phi (F.map Complex.ofRealHom))
    (c' : Ctx (RModes N) (Fin n → ℂ) (Fin (n + 2) → ℂ)) (hc' : c' = { c with Sk0 := scalarProduct q (n + 4) phi (F'.map Complex.ofRealHom) })
    (la : LA (RModes N) (Fin n → ℂ) (Fin (n + 2) → ℂ)) (hla : la.Solves c.nu c.dt c.rot.G c.M) (x x' : St (RModes N) (Fin n → ℂ) (Fin (n + 2) → ℂ))
    (V V' : Vel (RModes N) (Fin n → ℂ) (Fin (n + 2) → ℂ)) (p p' : RModes N → Fin (n + 2) → ℂ) (hH : x.H1 = c.conv V p) (hH' : x'.H1 = c'.conv V' p')
    (hx : Channel.UnmaskedVel N x.U.rot ∧ Channel.UnmaskedVel N x.U0.rot ∧ Channel.UnmaskedVel N V.rot ∧ UnmaskedWall N x.g ∧ UnmaskedWall N p)
    (hx' : Channel.StoredVel N x'.U.rot ∧ Channel.StoredVel N x'.U0.rot ∧ Channel.StoredVel N V'.rot ∧ StoredWall N x'.g ∧ StoredWall N p')
    (hm : MovedVel q L r s h x.U x'.U ∧ MovedVel q L r s h x.U0 x'.U0 ∧ MovedVel q L r s h V V' ∧ Channel.MovedVort L r s h x.g x'.g ∧ Channel.MovedVort L r s h p p') (m : ℕ) :
    MovedVel q L r s h ((tick c la id)^[m] x).U ((tick c' la id)^[m] x').U := by
  have S' : ChebCtx q n M L hN c' := by subst hc'; exact ⟨S.sides, S.mats, S.grid, S.visc, S.conv⟩
  have hmask' : c'.mask = some fun k => if nyquistMask N k then 1 else 0 := by subst hc'; exact hmask
  have vanV : ∀ {U : Channel.Vel (RModes N) (Fin n → ℂ) (Fin (n + 2) → ℂ)}, Channel.StoredVel N U → VanVel (nyquistMask N) U := fun hU =>
    Channel.UnmaskedVel.van ⟨fun j => (hU.1 j).1, fun j => (hU.2.1 j).1, fun j => (hU.2.2 j).1⟩
  have hla' : la.Solves (c.kmm q M L hN).nu (c.kmm q M L hN).dt (c.kmm q M L hN).G (c.kmm q M L hN).M := by
    have e : c.rot.G = { Channel.waveGrid N L hN with X1 := filteredWaves N L 0, X2 := filteredWaves N L 1 } := by
      show c.G.rot = _
      rw [S.grid]
      rfl
    rw [e] at hla
    exact ⟨hla.helmholtzG, hla.biharmonicU, hla.helmholtzU0, hla.tdmaD⟩
  have e1 : x.rot.H1 = (c.kmm q M L hN).conv V.rot p := by
    rw [← S.conv_kmm hx.2.2.1.van]
    show rotVec x.H1 = _
    rw [hH]
    rfl
  have e2 : x'.rot.H1 = (c'.kmm q M L hN).conv V'.rot p' := by
    rw [← S'.conv_kmm (vanV hx'.2.2.1)]
    show rotVec x'.H1 = _
    rw [hH']
    rfl
  have R := Channel.kmm_rel S.kmm hmask H r s F F' hF hSk (c'.kmm q M L hN) (by subst hc'; rfl) la hla' x.rot x'.rot V.rot V'.rot p p' e1 e2 hx hx'
    ⟨movedVel_rot.1 hm.1, movedVel_rot.1 hm.2.1, movedVel_rot.1 hm.2.2.1, hm.2.2.2.1, hm.2.2.2.2⟩
  have st : ∀ U : Channel.Vel (RModes N) (Fin n → ℂ) (Fin (n + 2) → ℂ), Channel.StoredVel N (Channel.moveVel (act N L 1 s h) r s U) := fun U =>
    ⟨Channel.lift_stored s r r U.u, Channel.lift_stored s r (s 0) U.v, Channel.lift_stored s r (s 1) U.w⟩
  have r1 := S.run_kmm hmask la x.rot (fun m => (R m).vanU) m
  have r2 := S'.run_kmm hmask' la x'.rot (fun m => by rw [(R m).U]; exact vanV (st _)) m
  have u1 : (((tick c la id)^[m] x).U).rot = ((Channel.tick c.rot la id)^[m] x.rot).U := congrArg Channel.St.U (C86_run c la id x m)
  have u2 : (((tick c' la id)^[m] x').U).rot = ((Channel.tick c'.rot la id)^[m] x'.rot).U := congrArg Channel.St.U (C86_run c' la id x' m)
  rw [movedVel_rot, u1, u2, r1, r2, (R m).U]
  exact Channel.moveVel_moved H r s _ (R m).vanU

/-- **C102 (KMMr, a symmetric flow stays symmetric).**  If the start and the source are unchanged by the motion, so is the flow after any number of steps. -/
theorem C102_kmmr_symmetric (S : ChebCtx q n M L hN c) (hmask : c.mask = some fun k => if nyquistMask N k then 1 else 0) (H : Motion N M L 1 h) (r : ℤˣ) (s : Fin 2 → ℤˣ)
    (F : ℝ[X]) (hF : ∀ x, F.eval x = ((s 0 : ℤ) : ℝ) * F.eval (((r : ℤ) : ℝ) * x)) (hSk : c.Sk0 = scalarProduct q (n + 4) phi (F.map Complex.ofRealHom))
    (la : LA (RModes N) (Fin n → ℂ) (Fin (n + 2) → ℂ)) (hla : la.Solves c.nu c.dt c.rot.G c.M) (x : St (RModes N) (Fin n → ℂ) (Fin (n + 2) → ℂ))
    (V : Vel (RModes N) (Fin n → ℂ) (Fin (n + 2) → ℂ)) (p : RModes N → Fin (n + 2) → ℂ) (hH : x.H1 = c.conv V p)
    (hx : Channel.StoredVel N x.U.rot ∧ Channel.StoredVel N x.U0.rot ∧ Channel.StoredVel N V.rot ∧ StoredWall N x.g ∧ StoredWall N p)
    (hm : MovedVel q L r s h x.U x.U ∧ MovedVel q L r s h x.U0 x.U0 ∧ MovedVel q L r s h V V ∧ Channel.MovedVort L r s h x.g x.g ∧ Channel.MovedVort L r s h p p) (m : ℕ) :
    MovedVel q L r s h ((tick c la id)^[m] x).U ((tick c la id)^[m] x).U :=
  C102_kmmr S hmask H r s F F hF hSk c (by rw [← hSk]) la hla x x V V p p hH hH
    ⟨⟨fun j => (hx.1.1 j).1, fun j => (hx.1.2.1 j).1, fun j => (hx.1.2.2 j).1⟩, ⟨fun j => (hx.2.1.1 j).1, fun j => (hx.2.1.2.1 j).1, fun j => (hx.2.1.2.2 j).1⟩,
      ⟨fun j => (hx.2.2.1.1 j).1, fun j => (hx.2.2.1.2.1 j).1, fun j => (hx.2.2.1.2.2 j).1⟩, fun j => (hx.2.2.2.1 j).1, fun j => (hx.2.2.2.2 j).1⟩ hx hm m

/-- Runs of KMMr on a mesh with `8 × 8 × 7` points: from any flow, and from the flow with the walls exchanged, `y` reflected and any displacement along the walls. -/
example (U : Vel (RModes ![8, 8]) (Fin 3 → ℂ) (Fin 5 → ℂ)) (hU : Channel.UnmaskedVel ![8, 8] U.rot) (h : Fin 2 → ℝ) :
    ∃ (c : Ctx (RModes ![8, 8]) (Fin 3 → ℂ) (Fin 5 → ℂ)) (la : LA (RModes ![8, 8]) (Fin 3 → ℂ) (Fin 5 → ℂ)) (x x' : St (RModes ![8, 8]) (Fin 3 → ℂ) (Fin 5 → ℂ)),
      la.Solves c.nu c.dt c.rot.G c.M ∧ c.Sk0 = scalarProduct .GL 7 phi 1 ∧ x.U = U ∧ MovedVel .GL ![1, 2] (-1) ![1, -1] h x.U x'.U ∧
      ∀ m : ℕ, MovedVel .GL ![1, 2] (-1) ![1, -1] h ((tick c la id)^[m] x).U ((tick c la id)^[m] x').U := by
  have hN : ∀ i : Fin 2, 0 < (![8, 8] : Fin 2 → ℕ) i := fun i => by fin_cases i <;> norm_num
  have H : Motion (n := 1) ![8, 8] ![12, 12] ![1, 2] 1 h := ⟨fun _ => rfl, fun _ => rfl, fun _ => rfl, hN, fun i => by fin_cases i <;> norm_num,
    fun i => by fin_cases i <;> norm_num, Or.inl fun i => by fin_cases i <;> rfl⟩
  let c : Ctx (RModes ![8, 8]) (Fin 3 → ℂ) (Fin 5 → ℂ) :=
    { nu := 1 / 100, dt := 1 / 10, G := waveGrid ![8, 8] ![1, 2] hN, M := chebMats .GL 3, mask := some fun k => if nyquistMask (n := 1) ![8, 8] k then 1 else 0,
      conv := vortex (Channel.chebWall .GL 3) (rspace ![8, 8] ![12, 12]) (waveGrid ![8, 8] ![1, 2] hN),
      Sk0 := scalarProduct .GL 7 phi ((C 1 : ℝ[X]).map Complex.ofRealHom) }
  have S : ChebCtx .GL 3 ![12, 12] ![1, 2] hN c := ⟨fun i => by fin_cases i <;> norm_num, rfl, rfl, by norm_num [c], rfl⟩
  obtain ⟨la, hla, -⟩ := Galerkin.C75_kmm .GL 3 c.rot.G c.nu c.dt S.visc (by norm_num [c])
  obtain ⟨U', hU', hm⟩ := Channel.exists_movedVel H .GL (-1) ![1, -1] U.rot hU
  let g := vorticity (Channel.waveGrid ![8, 8] ![1, 2] hN) U.rot
  let g' := vorticity (Channel.waveGrid ![8, 8] ![1, 2] hN) U'
  have hg : UnmaskedWall ![8, 8] g := fun j k hk => by
    simp [g, vorticity, show U.u0 k = 0 from hU.van.2.1 k hk, show U.u1 k = 0 from hU.van.2.2 k hk, Vel.rot]
  have eg : g' = Channel.moveG (act ![8, 8] ![1, 2] 1 ![1, -1] h) (-1) ![1, -1] g := by
    rw [← Channel.vorticity_moved H hN, ← Channel.moveVel_of_moved H hU hU' hm]
  have hg' : StoredWall ![8, 8] g' := by rw [eg]; exact Channel.lift_stored ![1, -1] (-1) _ _
  have hmg : Channel.MovedVort ![1, 2] (-1) ![1, -1] h g g' := by rw [eg]; exact Channel.lift_moved H ![1, -1] (-1) _ (Channel.hasPar_phi (-1)) _ hg
  have hm' : MovedVel .GL ![1, 2] (-1) ![1, -1] h U (unrot U') := movedVel_rot.2 hm
  let x : St (RModes ![8, 8]) (Fin 3 → ℂ) (Fin 5 → ℂ) := ⟨U, g, c.conv U g, c.conv U g, c.conv U g, U⟩
  let x' : St (RModes ![8, 8]) (Fin 3 → ℂ) (Fin 5 → ℂ) := ⟨unrot U', g', c.conv (unrot U') g', c.conv (unrot U') g', c.conv (unrot U') g', unrot U'⟩
  exact ⟨c, la, x, x', hla, by simp [c], rfl, hm', C102_kmmr S rfl H (-1) ![1, -1] (C 1) (C 1) (fun y => by simp) rfl c rfl la hla x x' U (unrot U') g g' rfl rfl
    ⟨hU, hU, hU, hg, hg⟩ ⟨hU', hU', hU', hg', hg'⟩ ⟨hm', hm', hm', hmg, hmg⟩⟩

end SpectralDNS.KMMr

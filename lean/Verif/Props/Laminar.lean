import Verif.Props.ChannelRK3
import Verif.Props.ChannelConv
import Verif.Model.Laminar
import Mathlib.LinearAlgebra.FiniteDimensional.Lemmas

/-!
# C74: the channel solvers started from rest compute the laminar channel flow
-/

namespace SpectralDNS.Laminar

open Channel Periodic Polynomial Spec.Channel

variable {κ B D C Q P : Type*} [AddCommGroup B] [Module ℂ B] [AddCommGroup D] [Module ℂ D] [AddCommGroup C] [Module ℂ C]

/-- Plane transforms take functions without variation to coefficients with only the entry `z`, and back. -/
structure Flat (T : Space κ P) (z : κ) : Prop where
  backward_zero : T.backward 0 = 0
  backward : ∀ a : κ → ℂ, (∀ k, k ≠ z → a k = 0) → ∀ p p', T.backward a p = T.backward a p'
  forward_zero : T.forward 0 = 0
  forward : ∀ f : P → ℝ, (∀ p p', f p = f p') → ∀ k, k ≠ z → T.forward f k = 0

theorem rspace_flat {n : ℕ} (N M : Fin (n + 1) → ℕ) (hN : ∀ i, 0 < N i) (hNM : ∀ i, N i ≤ M i) (z : RModes N) (hz : ∀ i, waves N i z = 0) :
    Flat (rspace N M) z where
  backward_zero := by funext p; simp [rspace, dft]
  backward a ha p p' := by
    simp only [rspace, dft]
    have h : ∀ p : Periodic.Grid M, ∑ k, (rweight N k : ℂ) * a k * kernel (waves N) M k p = (rweight N z : ℂ) * a z := by
      intro p
      rw [Finset.sum_eq_single z]
      · simp [kernel, hz]
      · intro k _ hk; rw [ha k hk]; ring
      · simp
    rw [h, h]
  forward_zero := by funext k; simp [rspace, dft]
  forward f hf k hk := by
    have p0 : Periodic.Grid M := fun i => ⟨0, (hN i).trans_le (hNM i)⟩
    rw [forward_trig N M hNM (fun _ : Unit => 0) (fun _ => (f p0 : ℂ)) (fun _ i => by simpa using hN i) f
      (fun p => by simp [trig, expz, hf p p0]) hN]
    rw [Periodic.coeffs, Fintype.sum_unique, if_neg]
    intro h
    refine hk (waves_inj N k z fun i => ?_)
    have := congrFun h i
    simp only [wvec, Pi.zero_apply] at this
    rw [← this, hz]

/-- No variation in the planes parallel to the walls. -/
def FlatFun (f : Q → P → ℝ) : Prop := ∀ q p p', f q p = f q p'

theorem FlatFun.mul {f g : Q → P → ℝ} (hf : FlatFun f) (hg : FlatFun g) : FlatFun (f * g) := fun q p p' => by
  simp only [Pi.mul_apply, hf q p p', hg q p p']
theorem FlatFun.sub {f g : Q → P → ℝ} (hf : FlatFun f) (hg : FlatFun g) : FlatFun (f - g) := fun q p p' => by
  simp only [Pi.sub_apply, hf q p p', hg q p p']
theorem FlatFun.add {f g : Q → P → ℝ} (hf : FlatFun f) (hg : FlatFun g) : FlatFun (f + g) := fun q p p' => by
  simp only [Pi.add_apply, hf q p p', hg q p p']

variable {W : Wall B D C Q} {T : Space κ P} {z : κ}

theorem synth_zero (hT : Flat T z) (x : Q → ℝ) : synth T x (fun _ => 0) = 0 := by
  funext q
  simp only [synth, eval_zero]
  exact hT.backward_zero

theorem synth_flat (hT : Flat T z) (x : Q → ℝ) (a : κ → ℂ[X]) (ha : ∀ k, k ≠ z → a k = 0) : FlatFun (synth T x a) :=
  fun q p p' => hT.backward _ (fun k hk => by simp [ha k hk]) p p'

theorem bwdB_zero (hT : Flat T z) : bwdB W T 0 = 0 := by
  have : (fun k : κ => W.fB ((0 : κ → B) k)) = fun _ => 0 := by funext k; simp
  rw [bwdB, this]; exact synth_zero hT _

theorem bwdD_zero (hT : Flat T z) : bwdD W T 0 = 0 := by
  have : (fun k : κ => W.fD ((0 : κ → D) k)) = fun _ => 0 := by funext k; simp
  rw [bwdD, this]; exact synth_zero hT _

theorem bwdD_flat (hT : Flat T z) (a : κ → D) (ha : ∀ k, k ≠ z → a k = 0) : FlatFun (bwdD W T a) :=
  synth_flat hT _ _ fun k hk => by simp [ha k hk]

theorem bwdC_flat (hT : Flat T z) (a : κ → C) (ha : ∀ k, k ≠ z → a k = 0) : FlatFun (bwdC W T a) :=
  synth_flat hT _ _ fun k hk => by simp [ha k hk]

theorem fwdD_zero (hT : Flat T z) : fwdD W T 0 = 0 := by
  funext k
  have : (fun q : Q => T.forward ((0 : Q → P → ℝ) q) k) = 0 := by
    funext q
    exact congrFun hT.forward_zero k
  rw [fwdD, this, map_zero]; rfl

theorem fwdD_flat (hT : Flat T z) {f : Q → P → ℝ} (hf : FlatFun f) (k : κ) (hk : k ≠ z) : fwdD W T f k = 0 := by
  have : (fun q : Q => T.forward (f q) k) = 0 := funext fun q => hT.forward _ (hf q) k hk
  rw [fwdD, this, map_zero]

theorem ik_zero {V : Type*} [AddCommGroup V] [Module ℂ V] (K : κ → ℝ) : ik K (0 : κ → V) = 0 := by funext k; simp [ik]

theorem ik_flat {V : Type*} [AddCommGroup V] [Module ℂ V] (K : κ → ℝ) (hK : K z = 0) (a : κ → V) (ha : ∀ k, k ≠ z → a k = 0) : ik K a = 0 := by
  funext k
  by_cases hk : k = z
  · simp [ik, hk, hK]
  · simp [ik, ha k hk]

/-- A flow parallel to the walls which depends on the distance from the wall only. -/
structure Parallel (z : κ) (U : Vel κ B D) : Prop where
  u : U.u = 0
  v : ∀ k, k ≠ z → U.v k = 0
  w : ∀ k, k ≠ z → U.w k = 0

/-- A convection without wall-parallel components and with wall-normal component without variation along the walls. -/
structure Balanced (z : κ) (H : Vec κ D) : Prop where
  c0 : ∀ k, k ≠ z → H.c0 k = 0
  c1 : H.c1 = 0
  c2 : H.c2 = 0

theorem Balanced.scale {H : Vec κ D} (x : ℂ) (h : Balanced z H) : Balanced z (scaleVec x H) :=
  ⟨fun k hk => by simp [scaleVec, h.c0 k hk], by funext k; simp [scaleVec, h.c1], by funext k; simp [scaleVec, h.c2]⟩

theorem standard_parallel (hT : Flat T z) (G : Channel.Grid κ) (h1 : G.K1 z = 0) (h2 : G.K2 z = 0) {U : Vel κ B D} (hU : Parallel z U) :
    standardConvection W T G U = ⟨0, 0, 0⟩ := by
  have e : (fun k : κ => W.projD (derivative (W.fB ((0 : κ → B) k)))) = 0 := by funext k; simp
  simp only [standardConvection, velocity, hU.u, ik_zero, bwdB_zero hT, ik_flat _ h1 _ hU.v, ik_flat _ h2 _ hU.v, ik_flat _ h1 _ hU.w,
    ik_flat _ h2 _ hU.w, bwdD_zero hT, e, Matrix.cons_val_zero, Matrix.cons_val_one, Matrix.cons_val, zero_mul, mul_zero, add_zero, fwdD_zero hT]

theorem divergence_parallel (hT : Flat T z) (G : Channel.Grid κ) (h1 : G.K1 z = 0) (h2 : G.K2 z = 0) {U : Vel κ B D} (hU : Parallel z U) :
    Channel.divergenceConvection W T G U ⟨0, 0, 0⟩ = ⟨0, 0, 0⟩ := by
  have hv := bwdD_flat (W := W) hT _ hU.v
  have hw := bwdD_flat (W := W) hT _ hU.w
  have a := fwdD_flat (W := W) hT (hv.mul hv)
  have b := fwdD_flat (W := W) hT (hv.mul hw)
  have c := fwdD_flat (W := W) hT (hw.mul hw)
  simp only [Channel.divergenceConvection, velocity, hU.u, bwdB_zero hT, Matrix.cons_val_zero, Matrix.cons_val_one, Matrix.cons_val, zero_mul,
    fwdD_zero hT, ik_zero, ik_flat _ h1 _ a, ik_flat _ h2 _ b, ik_flat _ h1 _ b, ik_flat _ h2 _ c, Pi.zero_apply, map_zero, add_zero]
  rfl

theorem vortex_parallel (hT : Flat T z) (G : Channel.Grid κ) {U : Vel κ B D} (hU : Parallel z U) :
    Balanced z (crossHat W T (velocity W T U) (computeCurl W T G U 0)) := by
  have hv := bwdD_flat (W := W) hT _ hU.v
  have hw := bwdD_flat (W := W) hT _ hU.w
  have hdv := bwdC_flat (W := W) hT (fun k => W.ctd (U.v k)) fun k hk => by simp [hU.v k hk]
  have hdw := bwdC_flat (W := W) hT (fun k => W.ctd (U.w k)) fun k hk => by simp [hU.w k hk]
  have e : (fun k : κ => -(Complex.I * G.K1 k) • (0 : κ → B) k) = 0 := by funext k; simp
  have e0 : FlatFun (0 : Q → P → ℝ) := fun _ _ _ => rfl
  refine ⟨fun k hk => ?_, ?_, ?_⟩
  · simp only [crossHat, velocity, computeCurl, hU.u, ik_zero, e, bwdB_zero hT, bwdD_zero hT, cross1_3d]
    refine fwdD_flat hT ?_ k hk
    simp only [Function.update_apply]
    simpa using (hv.mul hdv).sub (hw.mul (e0.sub hdw))
  · simp [crossHat, velocity, computeCurl, hU.u, ik_zero, bwdB_zero hT, bwdD_zero hT, cross1_3d, fwdD_zero hT]
  · simp [crossHat, velocity, computeCurl, hU.u, ik_zero, bwdB_zero hT, bwdD_zero hT, cross1_3d, fwdD_zero hT]

/-- C74: whatever its form, the convection does not act on a flow parallel to the walls. -/
theorem C74_convection (hT : Flat T z) (G : Channel.Grid κ) (h1 : G.K1 z = 0) (h2 : G.K2 z = 0) (kind : ConvKind) {U : Vel κ B D}
    (hU : Parallel z U) : Balanced z (convection kind W T G U 0) := by
  have hz : Balanced z (⟨0, 0, 0⟩ : Vec κ D) := ⟨fun _ _ => rfl, rfl, rfl⟩
  cases kind with
  | standard => rw [convection, standard_parallel hT G h1 h2 hU]; exact hz.scale _
  | divergence => rw [convection, divergence_parallel hT G h1 h2 hU]; exact hz.scale _
  | skew => rw [convection, standard_parallel hT G h1 h2 hU, divergence_parallel hT G h1 h2 hU]; exact hz.scale _
  | vortex => exact vortex_parallel hT G hU

/-! ## Time stepping -/

/-- A solver of a linear system with as many equations as unknowns returns zero for a zero right-hand side. -/
theorem solver_zero {V : Type*} [AddCommGroup V] [Module ℂ V] [FiniteDimensional ℂ V] (A : V →ₗ[ℂ] V) (S : V → V)
    (h : ∀ b, A (S b) = b) : S 0 = 0 := by
  have hs : Function.Surjective A := fun b => ⟨S b, h b⟩
  exact (LinearMap.injective_iff_surjective.2 hs) ((h 0).trans (map_zero A).symm)

theorem solves_zero [FiniteDimensional ℂ B] [FiniteDimensional ℂ D] {la : LA κ B D} {nu dt : ℝ} {G : Channel.Grid κ} {M : Mats B D}
    (h : la.Solves nu dt G M) :
    (∀ k, la.helmholtzG k 0 = 0) ∧ (∀ k, la.biharmonicU k 0 = 0) ∧ la.helmholtzU0 0 = 0 ∧ la.tdmaD 0 = 0 :=
  ⟨fun k => solver_zero (-M.ADD + ((G.Ksq k + 2 / nu / dt : ℝ) : ℂ) • M.BDD) _ fun b => h.helmholtzG k b,
   fun k => solver_zero (((-nu * dt / 2 : ℝ) : ℂ) • M.SBB + ((1 + nu * dt * G.Ksq k : ℝ) : ℂ) • M.ABB
      + ((-(G.Ksq k + nu * dt / 2 * G.K4 k) : ℝ) : ℂ) • M.BBB) _ fun b => h.biharmonicU k b,
   solver_zero (-M.ADD0 + ((2 / nu / dt : ℝ) : ℂ) • M.BDD0) _ h.helmholtzU0, solver_zero M.BDD _ h.tdmaD⟩

theorem solves3_zero [FiniteDimensional ℂ B] [FiniteDimensional ℂ D] {la : LA κ B D} {nu dt ab : ℝ} {G : Channel.Grid κ} {M : Mats B D}
    (h : la.Solves3 nu dt ab G M) :
    (∀ k, la.helmholtzG k 0 = 0) ∧ (∀ k, la.biharmonicU k 0 = 0) ∧ la.helmholtzU0 0 = 0 ∧ la.tdmaD 0 = 0 :=
  ⟨fun k => solver_zero (-M.ADD + ((G.Ksq k + 2 / nu / ab / dt : ℝ) : ℂ) • M.BDD) _ fun b => h.helmholtzG k b,
   fun k => solver_zero (((-nu * ab * dt / 2 : ℝ) : ℂ) • M.SBB + ((1 + nu * ab * dt * G.Ksq k : ℝ) : ℂ) • M.ABB
      + ((-(G.Ksq k + nu * ab * dt / 2 * G.K4 k) : ℝ) : ℂ) • M.BBB) _ fun b => h.biharmonicU k b,
   solver_zero (-M.ADD0 + ((2 / nu / ab / dt : ℝ) : ℂ) • M.BDD0) _ h.helmholtzU0, solver_zero M.BDD _ h.tdmaD⟩

theorem Balanced.mask {H : Vec κ D} (m : Option (κ → ℝ)) (h : Balanced z H) : Balanced z (maskVec m H) :=
  ⟨fun k hk => by simp [maskVec_c0, h.c0 k hk], by funext k; simp [maskVec_c1, h.c1], by funext k; simp [maskVec_c2, h.c2]⟩

theorem Balanced.ab {H H1 : Vec κ D} (h : Balanced z H) (h1 : Balanced z H1) : Balanced z (assembleAB H H1) :=
  ⟨fun k hk => by simp [assembleAB, h.c0 k hk, h1.c0 k hk], by funext k; simp [assembleAB, h.c1, h1.c1],
   by funext k; simp [assembleAB, h.c2, h1.c2]⟩

theorem hv_balanced (G : Channel.Grid κ) (h1 : G.K1 z = 0) (h2 : G.K2 z = 0) (M : Mats B D) {H : Vec κ D} (h : Balanced z H) (k : κ) :
    hvOf G M H k = 0 := by
  by_cases hk : k = z
  · simp [hvOf, h.c1, h.c2, hk, Grid.Ksq, h1, h2]
  · simp [hvOf, h.c1, h.c2, h.c0 k hk]

theorem hg_balanced (G : Channel.Grid κ) (M : Mats B D) {H : Vec κ D} (h : Balanced z H) (k : κ) : hgOf G M H k = 0 := by
  simp [hgOf, h.c1, h.c2]

variable [DecidableEq κ]

/-- The state of a KMM run while the flow is parallel to the walls. -/
structure IsLaminar (z : κ) (s : St κ B D) : Prop where
  U : Parallel z s.U
  g : s.g = 0
  H1 : Balanced z s.H1
  U0 : s.U0 = s.U

omit [Module ℂ B] [Module ℂ D] [DecidableEq κ] in
theorem start_laminar : IsLaminar z (start : St κ B D) :=
  ⟨⟨rfl, fun _ _ => rfl, fun _ _ => rfl⟩, rfl, ⟨fun _ _ => rfl, rfl, rfl⟩, rfl⟩

theorem laminar_tick [FiniteDimensional ℂ B] [FiniteDimensional ℂ D] (c : Ctx κ B D) (la : LA κ B D)
    (hla : la.Solves c.nu c.dt c.G c.M) (h1 : c.G.K1 c.G.zero = 0) (h2 : c.G.K2 c.G.zero = 0)
    (hconv : ∀ U, Parallel c.G.zero U → Balanced c.G.zero (c.conv U 0)) (s : St κ B D) (hs : IsLaminar c.G.zero s) :
    IsLaminar c.G.zero (tick c la id s) := by
  obtain ⟨zg, zu, -, zt⟩ := solves_zero hla
  have hH := hconv s.U hs.U
  have hH0 := (hH.ab hs.H1).mask c.mask
  have ru : ∀ k, (computeRHS c s).2.1 k = 0 := fun k => by
    simp [computeRHS, hs.g, hv_balanced c.G h1 h2 c.M hH0, hs.U.u, biharmonicCoeff]
  have rg : ∀ k, (computeRHS c s).2.2 k = 0 := fun k => by
    simp [computeRHS, hs.g, hg_balanced c.G c.M hH0, helmholtzCoeff]
  refine ⟨⟨?_, fun k hk => ?_, fun k hk => ?_⟩, ?_, ?_, rfl⟩
  · funext k
    by_cases hk : k = c.G.zero
    · simp [tick, endOfTstep, advance, Channel.integrate, solveLinear, hk]
    · simp [tick, endOfTstep, advance, Channel.integrate, solveLinear, ru, zu]
  · simp [tick, endOfTstep, advance, Channel.integrate, solveLinear, Function.update_of_ne hk, ru, rg, zu, zg, zt, computeVW]
  · simp [tick, endOfTstep, advance, Channel.integrate, solveLinear, Function.update_of_ne hk, ru, rg, zu, zg, zt, computeVW]
  · funext k
    simp [tick, endOfTstep, advance, Channel.integrate, solveLinear, rg, zg]
  · show Balanced _ (c.conv s.U s.g)
    rw [hs.g]
    exact hH

/-- C74: a KMM run, with any form of the convection, from a flow parallel to the walls (from rest in particular, `start_laminar`) stays
parallel to the walls and without variation along them; the streamwise profile advances by the Crank-Nicolson scheme for diffusion driven
by the pressure gradient, the spanwise one by the scheme for diffusion alone. -/
theorem C74_kmm [FiniteDimensional ℂ B] [FiniteDimensional ℂ D] (c : Ctx κ B D) (la : LA κ B D) (hnu : c.nu ≠ 0) (hdt : c.dt ≠ 0)
    (hla : la.Solves c.nu c.dt c.G c.M) (h1 : c.G.K1 c.G.zero = 0) (h2 : c.G.K2 c.G.zero = 0) (hT : Flat T c.G.zero) (kind : ConvKind)
    (hconv : c.conv = convection kind W T c.G) (s0 : St κ B D) (hs0 : IsLaminar c.G.zero s0) (n : ℕ) :
    let s := fun n => (tick c la id)^[n] s0
    (∀ k, (s n).U.u k = 0 ∧ (k ≠ c.G.zero → (s n).U.v k = 0 ∧ (s n).U.w k = 0)) ∧ (s n).g = 0 ∧
    CrankNicolson c.M.BDD0 c.M.ADD0 c.nu c.dt (-c.Sk) ((s n).U.v c.G.zero) ((s (n + 1)).U.v c.G.zero) ∧
    CrankNicolson c.M.BDD0 c.M.ADD0 c.nu c.dt 0 ((s n).U.w c.G.zero) ((s (n + 1)).U.w c.G.zero) := by
  intro s
  have hc : ∀ U, Parallel c.G.zero U → Balanced c.G.zero (c.conv U 0) := fun U hU => by
    rw [hconv]; exact C74_convection hT c.G h1 h2 kind hU
  have hs : ∀ n, IsLaminar c.G.zero (s n) := by
    intro n
    induction n with
    | zero => exact hs0
    | succ n ih =>
      have : s (n + 1) = tick c la id (s n) := Function.iterate_succ_apply' _ _ _
      rw [this]
      exact laminar_tick c la hla h1 h2 hc _ ih
  have e : s (n + 1) = tick c la id (s n) := Function.iterate_succ_apply' _ _ _
  obtain ⟨-, -, hv, hw⟩ := C34_step c la hnu hdt hla (s n)
  have hb := hc _ (hs n).U
  simp only [(hs n).g, hb.c1, hb.c2, (hs n).H1.c1, (hs n).H1.c2, ab2Mid, Pi.zero_apply, smul_zero, sub_zero, map_zero, zero_sub,
    (hs n).U0] at hv hw
  exact ⟨fun k => ⟨congrFun (hs n).U.u k, fun hk => ⟨(hs n).U.v k hk, (hs n).U.w k hk⟩⟩, (hs n).g, e ▸ hv, e ▸ hw⟩

theorem cn_unique [FiniteDimensional ℂ D] {M L : D →ₗ[ℂ] D} {nu dt : ℝ} (hnu : nu ≠ 0) (hdt : dt ≠ 0) {S : D → D}
    (hS : ∀ b, -L (S b) + ((2 / nu / dt : ℝ) : ℂ) • M (S b) = b) {x : D} (hx : M x - ((nu * dt / 2 : ℝ) : ℂ) • L x = 0) : x = 0 := by
  have hs : Function.Surjective (-L + ((2 / nu / dt : ℝ) : ℂ) • M) := fun b => ⟨S b, hS b⟩
  refine (LinearMap.injective_iff_surjective.2 hs) (Eq.trans ?_ (map_zero _).symm)
  have hnu' : (nu : ℂ) ≠ 0 := by exact_mod_cast hnu
  have hdt' : (dt : ℂ) ≠ 0 := by exact_mod_cast hdt
  refine Eq.trans ?_ ((congrArg (fun y => ((2 / nu / dt : ℝ) : ℂ) • y) hx).trans (smul_zero _))
  simp only [LinearMap.add_apply, LinearMap.neg_apply, LinearMap.smul_apply]
  push_cast
  match_scalars <;> field_simp

/-- C74: from rest the spanwise velocity vanishes for ever. -/
theorem C74_kmm_rest [FiniteDimensional ℂ B] [FiniteDimensional ℂ D] (c : Ctx κ B D) (la : LA κ B D) (hnu : c.nu ≠ 0) (hdt : c.dt ≠ 0)
    (hla : la.Solves c.nu c.dt c.G c.M) (h1 : c.G.K1 c.G.zero = 0) (h2 : c.G.K2 c.G.zero = 0) (hT : Flat T c.G.zero) (kind : ConvKind)
    (hconv : c.conv = convection kind W T c.G) (n : ℕ) : ((tick c la id)^[n] start).U.w = 0 := by
  funext k
  by_cases hk : k = c.G.zero
  · subst hk
    induction n with
    | zero => rfl
    | succ n ih =>
      obtain ⟨-, -, -, h⟩ := C74_kmm c la hnu hdt hla h1 h2 hT kind hconv start start_laminar n
      simp only [CrankNicolson, ih, Pi.zero_apply, map_zero, smul_zero, add_zero] at h
      refine cn_unique hnu hdt hla.helmholtzU0 ?_
      exact h
  · exact ((C74_kmm c la hnu hdt hla h1 h2 hT kind hconv start start_laminar n).1 k).2 hk |>.2

omit [DecidableEq κ] in
/-- C74: the parabolic profile is the steady state of these schemes for the source of the demo (`-2/Re` tested with the Dirichlet
basis), and the distance of any driven profile from it follows the scheme for diffusion alone.  `ADD0` is the Galerkin matrix of the
second derivative. -/
theorem C74_poiseuille (c : Ctx κ B D) (test : ℂ[X] →ₗ[ℂ] D) (fD : D →ₗ[ℂ] ℂ[X]) (Re dt : ℝ) (hRe : Re ≠ 0) (hnu : c.nu ≠ 0)
    (hA : ∀ v, c.M.ADD0 v = test (derivative (derivative (fD v)))) (hSk : c.Sk = set_Source test Re) (vP : D)
    (hP : fD vP = Polynomial.C ((1 / (c.nu * Re) : ℝ) : ℂ) * (1 - X ^ 2)) :
    CrankNicolson c.M.BDD0 c.M.ADD0 c.nu dt (-c.Sk) vP vP ∧
    ∀ v v', CrankNicolson c.M.BDD0 c.M.ADD0 c.nu dt (-c.Sk) v v' ↔ CrankNicolson c.M.BDD0 c.M.ADD0 c.nu dt 0 (v - vP) (v' - vP) := by
  have h : (c.nu : ℂ) • c.M.ADD0 vP = c.Sk := by
    rw [hA, hSk, hP, set_Source, ← map_smul]
    congr 1
    have hnu' : (c.nu : ℂ) ≠ 0 := by exact_mod_cast hnu
    have hRe' : (Re : ℂ) ≠ 0 := by exact_mod_cast hRe
    refine Polynomial.funext fun x => ?_
    simp
    field_simp
    norm_num
  have h1 : CrankNicolson c.M.BDD0 c.M.ADD0 c.nu dt (-c.Sk) vP vP := by
    rw [CrankNicolson, ← h]
    push_cast
    module
  refine ⟨h1, fun v v' => ?_⟩
  have key : ∀ M L : D →ₗ[ℂ] D, ∀ t : ℂ, ∀ F : D, (M (v' - vP) - t • L (v' - vP) - (M (v - vP) + t • L (v - vP) + (dt : ℂ) • (0 : D))) =
      (M v' - t • L v' - (M v + t • L v + (dt : ℂ) • F)) - (M vP - t • L vP - (M vP + t • L vP + (dt : ℂ) • F)) := by
    intro M L t F
    simp only [map_sub]
    module
  simp only [CrankNicolson] at h1 ⊢
  rw [← sub_eq_zero, ← sub_eq_zero (a := c.M.BDD0 (v' - vP) - _), key _ _ _ (-c.Sk), sub_eq_zero.2 h1, sub_zero]

/-! ## KMMRK3 -/

theorem laminar_substep [FiniteDimensional ℂ B] [FiniteDimensional ℂ D] (c : Ctx κ B D) (la : Fin 3 → LA κ B D) (rk : Fin 3)
    (hla : (la rk).Solves3 c.nu c.dt (rkA rk + rkB rk) c.G c.M) (h1 : c.G.K1 c.G.zero = 0) (h2 : c.G.K2 c.G.zero = 0)
    (hconv : ∀ U, Parallel c.G.zero U → Balanced c.G.zero (c.conv U 0)) (s : St3 κ B D) (hs : Parallel c.G.zero s.U) (hg : s.g = 0)
    (hb : rkB rk = 0 ∨ (∀ k, s.hv k = 0) ∧ ∀ k, s.hg k = 0) :
    Parallel c.G.zero (substep c la rk s).U ∧ (substep c la rk s).g = 0 ∧ (∀ k, (substep c la rk s).hv k = 0) ∧
      ∀ k, (substep c la rk s).hg k = 0 := by
  obtain ⟨zg, zu, -, zt⟩ := solves3_zero hla
  have hH := (hconv s.U hs).mask c.mask
  have bv : ∀ k, ((rkB rk : ℝ) : ℂ) • s.hv k = 0 := fun k => by
    rcases hb with h | h
    · simp [h]
    · simp [h.1]
  have bg : ∀ k, ((rkB rk : ℝ) : ℂ) • s.hg k = 0 := fun k => by
    rcases hb with h | h
    · simp [h]
    · simp [h.2]
  have ru : ∀ k, (computeRHS3 c rk s).2.1 k = 0 := fun k => by
    simp [computeRHS3, hg, hv_balanced c.G h1 h2 c.M hH, hs.u, biharmonicCoeff, bv]
  have rg : ∀ k, (computeRHS3 c rk s).2.2 k = 0 := fun k => by
    simp [computeRHS3, hg, hg_balanced c.G c.M hH, helmholtzCoeff, bg]
  refine ⟨⟨?_, fun k hk => ?_, fun k hk => ?_⟩, ?_, fun k => ?_, fun k => ?_⟩
  · funext k
    by_cases hk : k = c.G.zero
    · simp [substep, solveLinear3, hk]
    · simp [substep, solveLinear3, ru, zu]
  · simp [substep, solveLinear3, Function.update_of_ne hk, ru, rg, zu, zg, zt, computeVW]
  · simp [substep, solveLinear3, Function.update_of_ne hk, ru, rg, zu, zg, zt, computeVW]
  · funext k
    simp [substep, solveLinear3, rg, zg]
  · simp [substep, solveLinear3, computeRHS3, hg, hv_balanced c.G h1 h2 c.M hH]
  · simp [substep, solveLinear3, computeRHS3, hg, hg_balanced c.G c.M hH]

/-- The three substeps of a driven Crank-Nicolson step. -/
def CrankNicolson3 (M L : D →ₗ[ℂ] D) (nu dt : ℝ) (F x x' : D) : Prop :=
  ∃ y y', CrankNicolson M L nu (8 / 15 * dt) F x y ∧ CrankNicolson M L nu (2 / 15 * dt) F y y' ∧ CrankNicolson M L nu (1 / 3 * dt) F y' x'

/-- C74 for KMMRK3: the profiles advance by three Crank-Nicolson substeps covering 8/15, 2/15 and 1/3 of the step. -/
theorem C74_kmmrk3 [FiniteDimensional ℂ B] [FiniteDimensional ℂ D] (c : Ctx κ B D) (la : Fin 3 → LA κ B D) (hnu : c.nu ≠ 0)
    (hdt : c.dt ≠ 0) (hla : ∀ rk, (la rk).Solves3 c.nu c.dt (rkA rk + rkB rk) c.G c.M) (h1 : c.G.K1 c.G.zero = 0)
    (h2 : c.G.K2 c.G.zero = 0) (hT : Flat T c.G.zero) (kind : ConvKind) (hconv : c.conv = convection kind W T c.G) (s0 : St3 κ B D)
    (hs0 : Parallel c.G.zero s0.U) (hg0 : s0.g = 0) (n : ℕ) :
    let s := fun n => (tick3 c la id)^[n] s0
    (∀ k, (s n).U.u k = 0 ∧ (k ≠ c.G.zero → (s n).U.v k = 0 ∧ (s n).U.w k = 0)) ∧ (s n).g = 0 ∧
    CrankNicolson3 c.M.BDD0 c.M.ADD0 c.nu c.dt (-c.Sk) ((s n).U.v c.G.zero) ((s (n + 1)).U.v c.G.zero) ∧
    CrankNicolson3 c.M.BDD0 c.M.ADD0 c.nu c.dt 0 ((s n).U.w c.G.zero) ((s (n + 1)).U.w c.G.zero) := by
  intro s
  have hc : ∀ U, Parallel c.G.zero U → Balanced c.G.zero (c.conv U 0) := fun U hU => by
    rw [hconv]; exact C74_convection hT c.G h1 h2 kind hU
  have hs : ∀ n, s (n + 1) = integrate3 c la (s n) := fun n => Function.iterate_succ_apply' _ _ _
  have a0 := fun s hs hg => laminar_substep c la 0 (hla 0) h1 h2 hc s hs hg (Or.inl rfl)
  have a1 := fun s hs hg => laminar_substep c la 1 (hla 1) h1 h2 hc (substep c la 0 s) (a0 s hs hg).1 (a0 s hs hg).2.1
    (Or.inr (a0 s hs hg).2.2)
  have a2 := fun s hs hg => laminar_substep c la 2 (hla 2) h1 h2 hc (substep c la 1 (substep c la 0 s)) (a1 s hs hg).1 (a1 s hs hg).2.1
    (Or.inr (a1 s hs hg).2.2)
  have hP : ∀ n, Parallel c.G.zero (s n).U ∧ (s n).g = 0 := by
    intro n
    induction n with
    | zero => exact ⟨hs0, hg0⟩
    | succ n ih => rw [hs]; exact ⟨(a2 _ ih.1 ih.2).1, (a2 _ ih.1 ih.2).2.1⟩
  obtain ⟨p, q⟩ := hP n
  obtain ⟨f0, f1, f2, -⟩ := C35_fractions
  have N0 := hc _ p
  have N1 := hc _ (a0 _ p q).1
  have N2 := hc _ (a1 _ p q).1
  obtain ⟨-, -, v0, w0⟩ := substep_eq c la hnu hdt 0 (hla 0) (s n) _ f0 (by norm_num) (c.conv (s n).U (s n).g) (Or.inl rfl)
  obtain ⟨-, -, v1, w1⟩ := substep_eq c la hnu hdt 1 (hla 1) (substep c la 0 (s n)) _ f1 (by norm_num) _
    (Or.inr (substep_stored c la 0 _))
  obtain ⟨-, -, v2, w2⟩ := substep_eq c la hnu hdt 2 (hla 2) (substep c la 1 (substep c la 0 (s n))) _ f2 (by norm_num) _
    (Or.inr (substep_stored c la 1 _))
  simp only [q, (a0 _ p q).2.1, (a1 _ p q).2.1, combine, N0.c1, N0.c2, N1.c1, N1.c2, N2.c1, N2.c2, Pi.zero_apply, smul_zero, add_zero,
    map_zero, zero_sub] at v0 w0 v1 w1 v2 w2
  refine ⟨fun k => ⟨congrFun p.u k, fun hk => ⟨p.v k hk, p.w k hk⟩⟩, q, ⟨_, _, v0, v1, ?_⟩, ⟨_, _, w0, w1, ?_⟩⟩
  · rw [hs]; exact v2
  · rw [hs]; exact w2

/-! ## An instance: one wall-normal function, `v (1 - x²)` and `u (1 - x²)²`, tested at the middle of the channel; any plane grid -/

section Instance

variable (N : Fin 2 → ℕ) (hN : ∀ i, 0 < N i)

noncomputable def midWall : Wall ℂ ℂ ℂ Unit where
  fB := LinearMap.toSpanSingleton ℂ ℂ[X] ((1 - X ^ 2) ^ 2)
  fD := LinearMap.toSpanSingleton ℂ ℂ[X] (1 - X ^ 2)
  fC := LinearMap.toSpanSingleton ℂ ℂ[X] (-2 * X)
  x _ := 0
  fwd := LinearMap.proj ()
  projB := leval 0
  projD := leval 0
  projC := 0
  ctd := LinearMap.id
  toB := LinearMap.id
  toD := LinearMap.id

include hN in
theorem modes_zero (i : Fin 2) : 0 < rdim N i := by
  have := hN i
  unfold rdim
  split <;> omega

noncomputable def midGrid : Channel.Grid (RModes N) where
  K1 k := waves N 0 k
  K2 k := waves N 1 k
  X1 k := waves N 0 k
  X2 k := waves N 1 k
  zero i := ⟨0, modes_zero N hN i⟩

theorem mid_waves (i : Fin 2) : waves N i (midGrid N hN).zero = 0 := by
  have h0 : (((midGrid N hN).zero i : Fin _) : ℕ) = 0 := rfl
  simp only [waves, h0]
  split <;> simp

noncomputable def midMats : Mats ℂ ℂ where
  CBD := 0
  ABB := (-4 : ℂ) • LinearMap.id
  BBB := LinearMap.id
  SBB := (24 : ℂ) • LinearMap.id
  ADD := (-2 : ℂ) • LinearMap.id
  BDD := LinearMap.id
  BBD := LinearMap.id
  CDB := 0
  ADD0 := (-2 : ℂ) • LinearMap.id
  BDD0 := LinearMap.id

open Classical in
noncomputable def midCtx (kind : ConvKind) : Ctx (RModes N) ℂ ℂ where
  nu := 1
  dt := 1
  G := midGrid N hN
  M := midMats
  mask := none
  conv := convection kind midWall (rspace N N) (midGrid N hN)
  Sk := set_Source (leval 0) 1

noncomputable def midLA : LA (RModes N) ℂ ℂ where
  helmholtzG k b := b / (((2 : ℝ) : ℂ) + ((midGrid N hN).Ksq k + 2 / 1 / 1 : ℝ))
  biharmonicU k b := b / (-12 - 4 * (1 + (midGrid N hN).Ksq k) - ((midGrid N hN).Ksq k + 1 / 2 * (midGrid N hN).K4 k) : ℝ)
  helmholtzU0 b := b / 4
  tdmaD b := b

theorem mid_solves : (midLA N hN).Solves 1 1 (midGrid N hN) midMats where
  helmholtzG k b := by
    have h0 : 0 ≤ (midGrid N hN).Ksq k := add_nonneg (mul_self_nonneg _) (mul_self_nonneg _)
    have h : ((2 + ((midGrid N hN).Ksq k + 2 / 1 / 1) : ℝ) : ℂ) ≠ 0 := by
      have : (2 + ((midGrid N hN).Ksq k + 2 / 1 / 1) : ℝ) ≠ 0 := by positivity
      exact_mod_cast this
    simp only [midLA, midMats, LinearMap.smul_apply, LinearMap.id_apply, smul_eq_mul]
    have e := div_mul_cancel₀ b h
    rw [Complex.ofReal_add] at e
    generalize b / (((2 : ℝ) : ℂ) + (((midGrid N hN).Ksq k + 2 / 1 / 1 : ℝ) : ℂ)) = x at e
    rw [← e]
    push_cast
    ring
  biharmonicU k b := by
    have h0 : 0 ≤ (midGrid N hN).Ksq k := add_nonneg (mul_self_nonneg _) (mul_self_nonneg _)
    have h4 : 0 ≤ (midGrid N hN).K4 k := by unfold Grid.K4; positivity
    have h : ((-12 - 4 * (1 + (midGrid N hN).Ksq k) - ((midGrid N hN).Ksq k + 1 / 2 * (midGrid N hN).K4 k) : ℝ) : ℂ) ≠ 0 := by
      have : (-12 - 4 * (1 + (midGrid N hN).Ksq k) - ((midGrid N hN).Ksq k + 1 / 2 * (midGrid N hN).K4 k) : ℝ) ≠ 0 := by
        apply ne_of_lt; linarith
      exact_mod_cast this
    simp only [midLA, midMats, LinearMap.smul_apply, LinearMap.id_apply, smul_eq_mul]
    have e := div_mul_cancel₀ b h
    generalize b / ((-12 - 4 * (1 + (midGrid N hN).Ksq k) - ((midGrid N hN).Ksq k + 1 / 2 * (midGrid N hN).K4 k) : ℝ) : ℂ) = x at e
    rw [← e]
    push_cast
    ring
  helmholtzU0 b := by
    simp only [midLA, midMats, LinearMap.smul_apply, LinearMap.id_apply, smul_eq_mul]
    push_cast
    ring
  tdmaD b := rfl

theorem mid_flat : Flat (rspace N N) (midGrid N hN).zero := rspace_flat N N hN (fun _ => le_rfl) _ (mid_waves N hN)

open Classical in
/-- The hypotheses hold here for every form of the convection, and the flow is not at rest after the first step. -/
example (kind : ConvKind) : ((tick (midCtx N hN kind) (midLA N hN) id)^[1] start).U.v (midGrid N hN).zero = 1 ∧
    ((tick (midCtx N hN kind) (midLA N hN) id)^[1] start).U.w = 0 := by
  have h1 : (midGrid N hN).K1 (midGrid N hN).zero = 0 := by
    show ((waves N 0 (midGrid N hN).zero : ℤ) : ℝ) = 0
    rw [mid_waves]; simp
  have h2 : (midGrid N hN).K2 (midGrid N hN).zero = 0 := by
    show ((waves N 1 (midGrid N hN).zero : ℤ) : ℝ) = 0
    rw [mid_waves]; simp
  refine ⟨?_, C74_kmm_rest (W := midWall) (T := rspace N N) (midCtx N hN kind) (midLA N hN) one_ne_zero one_ne_zero (mid_solves N hN) h1 h2
    (mid_flat N hN) kind rfl 1⟩
  obtain ⟨-, -, h, -⟩ := C74_kmm (W := midWall) (T := rspace N N) (midCtx N hN kind) (midLA N hN) one_ne_zero one_ne_zero (mid_solves N hN)
    h1 h2 (mid_flat N hN) kind rfl start start_laminar 0
  show ((tick (midCtx N hN kind) (midLA N hN) id)^[0 + 1] start).U.v (midCtx N hN kind).G.zero = 1
  generalize ((tick (midCtx N hN kind) (midLA N hN) id)^[0 + 1] start).U.v (midCtx N hN kind).G.zero = x at h ⊢
  simp [CrankNicolson, midCtx, midMats, set_Source, start] at h
  linear_combination (1 / 2 : ℂ) * h

/-- The parabolic profile is one of the represented ones. -/
example (kind : ConvKind) : CrankNicolson midMats.BDD0 midMats.ADD0 1 1 (-(midCtx N hN kind).Sk) 1 1 :=
  (C74_poiseuille (midCtx N hN kind) (leval 0) midWall.fD 1 1 one_ne_zero one_ne_zero (fun v => by
    simp [midCtx, midMats, midWall]; ring) rfl 1 (by simp [midCtx, midWall])).1

end Instance

end SpectralDNS.Laminar

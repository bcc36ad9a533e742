import Verif.Lemmas.Retained
import Verif.Model.RBCheb
import Verif.Lemmas.ChannelSymmetryStep

/-! Restriction of the arrays of the channel solvers to some of the wavenumber pairs. -/

namespace SpectralDNS.Channel

open Polynomial Periodic

section
variable {κ κ' B D C Q P P' : Type*} [AddCommGroup B] [Module ℂ B] [AddCommGroup D] [Module ℂ D] [AddCommGroup C] [Module ℂ C]

/-- The entries at the wavenumber pairs `j k`. -/
def Vel.pull (j : κ' → κ) (U : Vel κ B D) : Vel κ' B D := ⟨fun k => U.u (j k), fun k => U.v (j k), fun k => U.w (j k)⟩
@[inherit_doc Vel.pull] def Vec.pull (j : κ' → κ) (H : Vec κ D) : Vec κ' D := ⟨fun k => H.c0 (j k), fun k => H.c1 (j k), fun k => H.c2 (j k)⟩
@[inherit_doc Vel.pull] def Grid.pull (j : κ' → κ) (z : κ') (G : Grid κ) : Grid κ' :=
  ⟨fun k => G.K1 (j k), fun k => G.K2 (j k), fun k => G.X1 (j k), fun k => G.X2 (j k), z⟩
@[inherit_doc Vel.pull] def Temp.pull (j : κ' → κ) (t : Temp κ D) : Temp κ' D := ⟨fun k => t.d (j k), fun k => t.p (j k), fun k => t.q (j k)⟩

/-- Products formed with `T'` have at `k` the coefficient of products formed with `T` at `j k`. -/
structure Retains (T : Space κ P) (T' : Space κ' P') (j : κ' → κ) : Prop where
  add : Additive T
  add' : Additive T'
  product : ∀ (a b : κ → ℂ) k, T'.forward (fun x => T'.backward (fun k => a (j k)) x * T'.backward (fun k => b (j k)) x) k =
    T.forward (fun x => T.backward a x * T.backward b x) (j k)

variable {T : Space κ P} {T' : Space κ' P'} {j : κ' → κ}

theorem synth_add (H : Additive T) (x : Q → ℝ) (a b : κ → ℂ[X]) : synth T x a + synth T x b = synth T x (a + b) := by
  funext q p
  simp only [synth, Pi.add_apply, eval_add]
  rw [H.backward]

theorem synth_sub (H : Additive T) (x : Q → ℝ) (a b : κ → ℂ[X]) : synth T x a - synth T x b = synth T x (a - b) := by
  rw [sub_eq_iff_eq_add, synth_add H, sub_add_cancel]

theorem fwdD_add (H : Additive T) (W : Wall B D C Q) (f g : Q → P → ℝ) : fwdD W T (f + g) = fwdD W T f + fwdD W T g := by
  funext k
  simp only [fwdD, Pi.add_apply]
  rw [← map_add]
  congr 1
  funext q
  exact congrFun (H.forward (f q) (g q)) k

theorem fwdD_sub (H : Additive T) (W : Wall B D C Q) (f g : Q → P → ℝ) : fwdD W T (f - g) = fwdD W T f - fwdD W T g := by
  rw [eq_sub_iff_add_eq, ← fwdD_add H, sub_add_cancel]

theorem Retains.fwd (R : Retains T T' j) (W : Wall B D C Q) (x y : Q → ℝ) (a b : κ → ℂ[X]) (k : κ') :
    fwdD W T' (synth T' x (fun k => a (j k)) * synth T' y fun k => b (j k)) k = fwdD W T (synth T x a * synth T y b) (j k) := by
  simp only [fwdD]
  congr 1
  funext q
  exact R.product (fun k => (a k).eval (x q : ℂ)) (fun k => (b k).eval (y q : ℂ)) k

/-- The two sides have the same coefficients, up to the choice of the wavenumber pairs. -/
def Follows (T : Space κ P) (T' : Space κ' P') (j : κ' → κ) (x : Q → ℝ) (f : Q → P → ℝ) (f' : Q → P' → ℝ) : Prop :=
  ∃ a : κ → ℂ[X], f = synth T x a ∧ f' = synth T' x fun k => a (j k)

theorem Follows.mk' {x : Q → ℝ} (a : κ → ℂ[X]) : Follows T T' j x (synth T x a) (synth T' x fun k => a (j k)) := ⟨a, rfl, rfl⟩

theorem Follows.add (R : Retains T T' j) {x : Q → ℝ} {f g f' g'} (h : Follows T T' j x f f') (h' : Follows T T' j x g g') : Follows T T' j x (f + g) (f' + g') := by
  obtain ⟨a, rfl, rfl⟩ := h
  obtain ⟨b, rfl, rfl⟩ := h'
  exact ⟨a + b, synth_add R.add .., synth_add R.add' ..⟩

theorem Follows.sub (R : Retains T T' j) {x : Q → ℝ} {f g f' g'} (h : Follows T T' j x f f') (h' : Follows T T' j x g g') : Follows T T' j x (f - g) (f' - g') := by
  obtain ⟨a, rfl, rfl⟩ := h
  obtain ⟨b, rfl, rfl⟩ := h'
  exact ⟨a - b, synth_sub R.add .., synth_sub R.add' ..⟩

theorem Follows.mul (R : Retains T T' j) (W : Wall B D C Q) {x : Q → ℝ} {f g f' g'} (h : Follows T T' j x f f') (h' : Follows T T' j x g g') (k : κ') :
    fwdD W T' (f' * g') k = fwdD W T (f * g) (j k) := by
  obtain ⟨a, rfl, rfl⟩ := h
  obtain ⟨b, rfl, rfl⟩ := h'
  exact R.fwd W x x a b k

variable (R : Retains T T' j) (W : Wall B D C Q) (G : Grid κ) (z : κ') (U : Vel κ B D) (g : κ → D)

theorem follows_velocity (W : Wall B D C Q) (i : Fin 3) :
    Follows T T' j W.x (velocity W T U i) (velocity W T' (U.pull j) i) := by
  match i with
  | 0 => exact Follows.mk' fun k => W.fB (U.u k)
  | 1 => exact Follows.mk' fun k => W.fD (U.v k)
  | 2 => exact Follows.mk' fun k => W.fD (U.w k)

theorem follows_B (a : κ → B) : Follows T T' j W.x (bwdB W T a) (bwdB W T' fun k => a (j k)) := Follows.mk' fun k => W.fB (a k)
theorem follows_D (a : κ → D) : Follows T T' j W.x (bwdD W T a) (bwdD W T' fun k => a (j k)) := Follows.mk' fun k => W.fD (a k)
theorem follows_C (a : κ → C) : Follows T T' j W.x (bwdC W T a) (bwdC W T' fun k => a (j k)) := Follows.mk' fun k => W.fC (a k)

include R

theorem Retains.standard : standardConvection W T' (G.pull j z) (U.pull j) = (standardConvection W T G U).pull j := by
  have e : ∀ {a b c d e f a' b' c' d' e' f'}, Follows T T' j W.x a a' → Follows T T' j W.x b b' → Follows T T' j W.x c c' → Follows T T' j W.x d d' →
      Follows T T' j W.x e e' → Follows T T' j W.x f f' → ∀ k, fwdD W T' (a' * b' + c' * d' + e' * f') k = fwdD W T (a * b + c * d + e * f) (j k) :=
    fun ha hb hc hd he hf k => by
      rw [fwdD_add R.add', fwdD_add R.add', fwdD_add R.add, fwdD_add R.add]
      simp only [Pi.add_apply, ha.mul R W hb, hc.mul R W hd, he.mul R W hf]
  have u := fun i => follows_velocity (T := T) (T' := T') (j := j) U W i
  ext1 <;> funext k
  · exact e (u 0) (follows_D W fun k => W.projD (derivative (W.fB (U.u k)))) (u 1) (follows_B W (ik G.K1 U.u)) (u 2) (follows_B W (ik G.K2 U.u)) k
  · exact e (u 0) (follows_C W fun k => W.projC (derivative (W.fD (U.v k)))) (u 1) (follows_D W (ik G.K1 U.v)) (u 2) (follows_D W (ik G.K2 U.v)) k
  · exact e (u 0) (follows_C W fun k => W.projC (derivative (W.fD (U.w k)))) (u 1) (follows_D W (ik G.K1 U.w)) (u 2) (follows_D W (ik G.K2 U.w)) k

theorem Retains.divergence (r : Vec κ D) : divergenceConvection W T' (G.pull j z) (U.pull j) (r.pull j) = (divergenceConvection W T G U r).pull j := by
  have u := fun i => follows_velocity (T := T) (T' := T') (j := j) U W i
  have e' : ∀ a b k, fwdD W T' (velocity W T' (U.pull j) a * velocity W T' (U.pull j) b) k = fwdD W T (velocity W T U a * velocity W T U b) (j k) :=
    fun a b k => (u a).mul R W (u b) k
  ext1 <;> funext k <;> simp only [divergenceConvection, Vec.pull, ik, Grid.pull, e']

theorem follows_cross {a b : Fin 3 → Q → P → ℝ} {a' b' : Fin 3 → Q → P' → ℝ} (ha : ∀ i, Follows T T' j W.x (a i) (a' i))
    (hb : ∀ i, Follows T T' j W.x (b i) (b' i)) : crossHat W T' a' b' = (crossHat W T a b).pull j := by
  have e : ∀ i i' l l' k, fwdD W T' (a' i * b' i' - a' l * b' l') k = fwdD W T (a i * b i' - a l * b l') (j k) := fun i i' l l' k => by
    rw [fwdD_sub R.add', fwdD_sub R.add]
    simp only [Pi.sub_apply, (ha _).mul R W (hb _)]
  ext1 <;> funext k
  · exact e 1 2 2 1 k
  · exact e 2 0 0 2 k
  · exact e 0 1 1 0 k

theorem Retains.vortex : crossHat W T' (velocity W T' (U.pull j)) (computeCurl W T' (G.pull j z) (U.pull j) fun k => g (j k)) =
    (crossHat W T (velocity W T U) (computeCurl W T G U g)).pull j := by
  refine follows_cross R W (fun i => follows_velocity U W i) fun i => ?_
  match i with
  | 0 => exact follows_D W g
  | 1 => exact (follows_B W (ik G.K2 U.u)).sub R (follows_C W fun k => W.ctd (U.w k))
  | 2 => exact (follows_B W fun k => -(Complex.I * G.K1 k) • U.u k).add R (follows_C W fun k => W.ctd (U.v k))

/-- All forms of the convection of KMM. -/
theorem Retains.conv (kind : ConvKind) :
    convection kind W T' (G.pull j z) (U.pull j) (fun k => g (j k)) = (convection kind W T G U g).pull j := by
  have h0 : (⟨0, 0, 0⟩ : Vec κ' D) = (⟨0, 0, 0⟩ : Vec κ D).pull j := rfl
  cases kind
  · simp only [convection, R.standard]
    rfl
  · simp only [convection]
    rw [h0, R.divergence]
    rfl
  · simp only [convection, R.standard, R.divergence]
    rfl
  · exact R.vortex W G z U g

end

/-! ## Linear systems and time steps -/

section
variable {κ κ' B D : Type*} [DecidableEq κ] [DecidableEq κ'] [AddCommGroup B] [Module ℂ B] [AddCommGroup D] [Module ℂ D]

@[inherit_doc Vel.pull] def St.pull (j : κ' → κ) (s : St κ B D) : St κ' B D :=
  ⟨s.U.pull j, fun k => s.g (j k), s.H.pull j, s.H0.pull j, s.H1.pull j, s.U0.pull j⟩
@[inherit_doc Vel.pull] def St3.pull (j : κ' → κ) (s : St3 κ B D) : St3 κ' B D :=
  ⟨s.U.pull j, fun k => s.g (j k), s.H.pull j, fun k => s.hv (j k), fun k => s.hg (j k), s.hm0, s.hm1⟩
@[inherit_doc Vel.pull] def LA.pull (j : κ' → κ) (la : LA κ B D) : LA κ' B D :=
  ⟨fun k => la.helmholtzG (j k), fun k => la.biharmonicU (j k), la.helmholtzU0, la.tdmaD⟩

/-- `c'` is `c` for the wavenumber pairs `j k`. -/
structure Below (c : Ctx κ B D) (c' : Ctx κ' B D) (j : κ' → κ) : Prop where
  nu : c'.nu = c.nu
  dt : c'.dt = c.dt
  G : c'.G = c.G.pull j c'.G.zero
  M : c'.M = c.M
  mask : ∀ H : Vec κ D, maskVec c'.mask (H.pull j) = (maskVec c.mask H).pull j
  conv : ∀ U g, c'.conv (Vel.pull j U) (fun k => g (j k)) = (c.conv U g).pull j
  Sk : c'.Sk = c.Sk
  zero : j c'.G.zero = c.G.zero
  inj : Function.Injective j

theorem solve_unique' {V : Type*} [AddCommGroup V] [Module ℂ V] [FiniteDimensional ℂ V] (A : V →ₗ[ℂ] V) (x x' : V → V) (hx : ∀ b, A (x b) = b)
    (hx' : ∀ b, A (x' b) = b) : x' = x := by
  funext b
  exact LinearMap.injective_iff_surjective.2 (fun b => ⟨x b, hx b⟩) ((hx' b).trans (hx b).symm)

variable {c : Ctx κ B D} {c' : Ctx κ' B D} {j : κ' → κ} (S : Below c c' j)
include S

theorem Below.Ksq (k : κ') : c'.G.Ksq k = c.G.Ksq (j k) := by rw [S.G]; rfl
theorem Below.K4 (k : κ') : c'.G.K4 k = c.G.K4 (j k) := by rw [S.G]; rfl

theorem Below.hv (H : Vec κ D) (k : κ') : hvOf c'.G c.M (H.pull j) k = hvOf c.G c.M H (j k) := by rw [S.G]; rfl
theorem Below.hg (H : Vec κ D) (k : κ') : hgOf c'.G c.M (H.pull j) k = hgOf c.G c.M H (j k) := by rw [S.G]; rfl

theorem Below.update {V : Type*} (a : κ → V) (x : V) :
    Function.update (fun k => a (j k)) c'.G.zero x = fun k => Function.update a c.G.zero x (j k) := by
  funext k
  by_cases hk : k = c'.G.zero
  · rw [hk, Function.update_self, S.zero, Function.update_self]
  · rw [Function.update_of_ne hk, Function.update_of_ne fun e => hk (S.inj (e.trans S.zero.symm))]

theorem Below.vw1 (f g : κ → D) : (computeVW c'.G (fun k => f (j k)) fun k => g (j k)).1 = fun k => (computeVW c.G f g).1 (j k) := by rw [S.G]; rfl
theorem Below.vw2 (f g : κ → D) : (computeVW c'.G (fun k => f (j k)) fun k => g (j k)).2 = fun k => (computeVW c.G f g).2 (j k) := by rw [S.G]; rfl

theorem Below.la [FiniteDimensional ℂ B] [FiniteDimensional ℂ D] {la : LA κ B D} {la' : LA κ' B D} {nu dt : ℝ} (h : la.Solves nu dt c.G c.M)
    (h' : la'.Solves nu dt c'.G c'.M) : la' = la.pull j := by
  cases la'
  simp only [LA.pull, LA.mk.injEq]
  refine ⟨funext fun k => ?_, funext fun k => ?_, ?_, ?_⟩
  · refine solve_unique' (-c.M.ADD + ((c.G.Ksq (j k) + 2 / nu / dt : ℝ) : ℂ) • c.M.BDD) _ _ (h.helmholtzG (j k)) fun b => ?_
    have := h'.helmholtzG k b
    rwa [S.Ksq, S.M] at this
  · refine solve_unique' (((-nu * dt / 2 : ℝ) : ℂ) • c.M.SBB + ((1 + nu * dt * c.G.Ksq (j k) : ℝ) : ℂ) • c.M.ABB +
      ((-(c.G.Ksq (j k) + nu * dt / 2 * c.G.K4 (j k)) : ℝ) : ℂ) • c.M.BBB) _ _ (h.biharmonicU (j k)) fun b => ?_
    have := h'.biharmonicU k b
    rwa [S.Ksq, S.K4, S.M] at this
  · refine solve_unique' (-c.M.ADD0 + ((2 / nu / dt : ℝ) : ℂ) • c.M.BDD0) _ _ h.helmholtzU0 fun b => ?_
    have := h'.helmholtzU0 b
    rwa [S.M] at this
  · refine solve_unique' c.M.BDD _ _ h.tdmaD fun b => ?_
    have := h'.tdmaD b
    rwa [S.M] at this

theorem Below.la3 [FiniteDimensional ℂ B] [FiniteDimensional ℂ D] {la : LA κ B D} {la' : LA κ' B D} {nu dt ab : ℝ} (h : la.Solves3 nu dt ab c.G c.M)
    (h' : la'.Solves3 nu dt ab c'.G c'.M) : la' = la.pull j := by
  cases la'
  simp only [LA.pull, LA.mk.injEq]
  refine ⟨funext fun k => ?_, funext fun k => ?_, ?_, ?_⟩
  · refine solve_unique' (-c.M.ADD + ((c.G.Ksq (j k) + 2 / nu / ab / dt : ℝ) : ℂ) • c.M.BDD) _ _ (h.helmholtzG (j k)) fun b => ?_
    have := h'.helmholtzG k b
    rwa [S.Ksq, S.M] at this
  · refine solve_unique' (((-nu * ab * dt / 2 : ℝ) : ℂ) • c.M.SBB + ((1 + nu * ab * dt * c.G.Ksq (j k) : ℝ) : ℂ) • c.M.ABB +
      ((-(c.G.Ksq (j k) + nu * ab * dt / 2 * c.G.K4 (j k)) : ℝ) : ℂ) • c.M.BBB) _ _ (h.biharmonicU (j k)) fun b => ?_
    have := h'.biharmonicU k b
    rwa [S.Ksq, S.K4, S.M] at this
  · refine solve_unique' (-c.M.ADD0 + ((2 / nu / ab / dt : ℝ) : ℂ) • c.M.BDD0) _ _ h.helmholtzU0 fun b => ?_
    have := h'.helmholtzU0 b
    rwa [S.M] at this
  · refine solve_unique' c.M.BDD _ _ h.tdmaD fun b => ?_
    have := h'.tdmaD b
    rwa [S.M] at this

theorem Below.rhs (s : St κ B D) : computeRHS c' (s.pull j) =
    ((computeRHS c s).1.pull j, (fun k => (computeRHS c s).2.1 (j k)), fun k => (computeRHS c s).2.2 (j k)) := by
  have hH : c'.conv (s.pull j).U (s.pull j).g = (c.conv s.U s.g).pull j := S.conv s.U s.g
  have hH0 : maskVec c'.mask (assembleAB ((c.conv s.U s.g).pull j) (s.pull j).H1) = (maskVec c.mask (assembleAB (c.conv s.U s.g) s.H1)).pull j :=
    S.mask (assembleAB (c.conv s.U s.g) s.H1)
  unfold computeRHS
  simp only [hH, hH0, S.hv, S.hg, S.Ksq, S.K4, S.nu, S.dt, S.M]
  rfl

theorem Below.solve (la : LA κ B D) (s : St κ B D) (r0 : κ → B) (r1 : κ → D) :
    solveLinear c' (la.pull j) (s.pull j) (fun k => r0 (j k)) (fun k => r1 (j k)) = (solveLinear c la s r0 r1).pull j := by
  unfold solveLinear
  simp only [S.nu, S.dt, S.M, S.Sk, LA.pull, St.pull, Vel.pull, Vec.pull, S.zero]
  congr 2
  · exact S.update (fun k => la.biharmonicU k (r0 k)) _
  · exact (congrArg (fun a => Function.update a c'.G.zero _) (S.vw1 (fun k => la.tdmaD (c.M.CDB (-la.biharmonicU k (r0 k)))) fun k => la.helmholtzG k (r1 k))).trans (S.update (computeVW c.G (fun k => la.tdmaD (c.M.CDB (-la.biharmonicU k (r0 k)))) fun k => la.helmholtzG k (r1 k)).1 _)
  · exact (congrArg (fun a => Function.update a c'.G.zero _) (S.vw2 (fun k => la.tdmaD (c.M.CDB (-la.biharmonicU k (r0 k)))) fun k => la.helmholtzG k (r1 k))).trans (S.update (computeVW c.G (fun k => la.tdmaD (c.M.CDB (-la.biharmonicU k (r0 k)))) fun k => la.helmholtzG k (r1 k)).2 _)

theorem Below.tick (la : LA κ B D) (s : St κ B D) : tick c' (la.pull j) id (s.pull j) = (tick c la id s).pull j := by
  have e : integrate c' (la.pull j) (s.pull j) = (integrate c la s).pull j := by
    unfold integrate
    rw [S.rhs]
    exact S.solve la (computeRHS c s).1 (computeRHS c s).2.1 (computeRHS c s).2.2
  unfold Channel.tick advance endOfTstep
  rw [e]
  rfl

theorem Below.rhs3 (rk : Fin 3) (s : St3 κ B D) : computeRHS3 c' rk (s.pull j) =
    ((computeRHS3 c rk s).1.pull j, (fun k => (computeRHS3 c rk s).2.1 (j k)), fun k => (computeRHS3 c rk s).2.2 (j k)) := by
  have hH : maskVec c'.mask (c'.conv (s.pull j).U (s.pull j).g) = (maskVec c.mask (c.conv s.U s.g)).pull j := by
    rw [← S.mask, ← S.conv]
    rfl
  have h1 : hvOf c'.G c.M ((maskVec c.mask (c.conv s.U s.g)).pull j) = fun k => hvOf c.G c.M (maskVec c.mask (c.conv s.U s.g)) (j k) := funext fun k => S.hv _ k
  have h2 : hgOf c'.G c.M ((maskVec c.mask (c.conv s.U s.g)).pull j) = fun k => hgOf c.G c.M (maskVec c.mask (c.conv s.U s.g)) (j k) := funext fun k => S.hg _ k
  unfold computeRHS3
  simp only [hH, h1, h2, S.Ksq, S.K4, S.nu, S.dt, S.M]
  rfl

theorem Below.solve3 (rk : Fin 3) (la : LA κ B D) (s : St3 κ B D) (r0 : κ → B) (r1 : κ → D) :
    solveLinear3 c' (la.pull j) rk (s.pull j) (fun k => r0 (j k)) (fun k => r1 (j k)) = (solveLinear3 c la rk s r0 r1).pull j := by
  unfold solveLinear3
  simp only [S.nu, S.dt, S.M, S.Sk, LA.pull, St3.pull, Vel.pull, Vec.pull, S.zero]
  congr 2
  · exact S.update (fun k => la.biharmonicU k (r0 k)) _
  · exact (congrArg (fun a => Function.update a c'.G.zero _) (S.vw1 (fun k => la.tdmaD (0 - c.M.CDB (la.biharmonicU k (r0 k)))) fun k => la.helmholtzG k (r1 k))).trans (S.update (computeVW c.G (fun k => la.tdmaD (0 - c.M.CDB (la.biharmonicU k (r0 k)))) fun k => la.helmholtzG k (r1 k)).1 _)
  · exact (congrArg (fun a => Function.update a c'.G.zero _) (S.vw2 (fun k => la.tdmaD (0 - c.M.CDB (la.biharmonicU k (r0 k)))) fun k => la.helmholtzG k (r1 k))).trans (S.update (computeVW c.G (fun k => la.tdmaD (0 - c.M.CDB (la.biharmonicU k (r0 k)))) fun k => la.helmholtzG k (r1 k)).2 _)

theorem Below.substep (la : Fin 3 → LA κ B D) (rk : Fin 3) (s : St3 κ B D) :
    substep c' (fun rk => (la rk).pull j) rk (s.pull j) = (substep c la rk s).pull j := by
  unfold Channel.substep
  rw [S.rhs3]
  exact S.solve3 rk (la rk) (computeRHS3 c rk s).1 (computeRHS3 c rk s).2.1 (computeRHS3 c rk s).2.2

theorem Below.tick3 (la : Fin 3 → LA κ B D) (s : St3 κ B D) : tick3 c' (fun rk => (la rk).pull j) id (s.pull j) = (tick3 c la id s).pull j := by
  unfold Channel.tick3 integrate3
  rw [S.substep, S.substep, S.substep]
  rfl

end

/-! ## Rayleigh-Benard -/

section
variable {κ κ' B D : Type*} [DecidableEq κ] [DecidableEq κ'] [AddCommGroup B] [Module ℂ B] [AddCommGroup D] [Module ℂ D]

@[inherit_doc Vel.pull] def RBSt.pull (j : κ' → κ) (s : RBSt κ B D) : RBSt κ' B D :=
  ⟨s.s.pull j, s.phi.pull j, s.phi0.pull j, s.phi1.pull j, fun k => s.N (j k), fun k => s.N0 (j k)⟩
@[inherit_doc Vel.pull] def RB3St.pull (j : κ' → κ) (s : RB3St κ B D) : RB3St κ' B D := ⟨s.s.pull j, s.phi.pull j, fun k => s.N0 (j k)⟩

/-- `r'` is `r` for the wavenumber pairs `j k`. -/
structure BelowRB (r : RBCtx κ B D) (r' : RBCtx κ' B D) (j : κ' → κ) : Prop where
  base : Below r.c r'.c j
  maskT : ∀ N : κ → D, maskT r'.c.mask (fun k => N (j k)) = fun k => maskT r.c.mask N (j k)
  kappa : r'.kappa = r.kappa
  e0 : r'.e0 = r.e0
  e1 : r'.e1 = r.e1
  btt0 : r'.btt0 = r.btt0
  btt1 : r'.btt1 = r.btt1
  prodB : ∀ phi u k, r'.prodB (Temp.pull j phi) (fun k => u (j k)) k = r.prodB phi u (j k)
  prodD : ∀ phi u k, r'.prodD (Temp.pull j phi) (fun k => u (j k)) k = r.prodD phi u (j k)
  bcp : r'.bcp = fun k => r.bcp (j k)
  bcq : r'.bcq = fun k => r.bcq (j k)
  ADDR : r'.ADDR = r.ADDR
  BDDR : r'.BDDR = r.BDDR
  ADDT : r'.ADDT = r.ADDT
  BDDT : r'.BDDT = r.BDDT

variable {r : RBCtx κ B D} {r' : RBCtx κ' B D} {j : κ' → κ} (S : BelowRB r r' j)
include S

theorem BelowRB.solveT [FiniteDimensional ℂ D] {ab : ℝ} {solveT solveT'} (h : SolvesT r ab solveT) (h' : SolvesT r' ab solveT') : solveT' = fun k => solveT (j k) := by
  funext k
  refine solve_unique' (-r.ADDR + ((r.c.G.Ksq (j k) + 2 / r.kappa / ab / r.c.dt : ℝ) : ℂ) • r.BDDR) _ _ (h (j k)) fun b => ?_
  have := h' k b
  rwa [S.base.Ksq, S.ADDR, S.BDDR, S.kappa, S.base.dt] at this

theorem BelowRB.buoyancy (phi : Temp κ D) (k : κ') : buoyancy r' (phi.pull j) k = buoyancy r phi (j k) := by
  simp only [Channel.buoyancy, S.base.Ksq, S.base.M, S.e0, S.e1, S.btt0, S.btt1]
  rfl

theorem BelowRB.divRB (U : Vel κ B D) (phi : Temp κ D) : divRB r' (U.pull j) (phi.pull j) = fun k => divRB r U phi (j k) := by
  have h1 : r'.c.G.K1 = fun k => r.c.G.K1 (j k) := by rw [S.base.G]; rfl
  have h2 : r'.c.G.K2 = fun k => r.c.G.K2 (j k) := by rw [S.base.G]; rfl
  funext k
  simp only [Channel.divRB, S.base.M, h1, h2, Vel.pull, S.prodB, S.prodD]

theorem BelowRB.tc (alfa beta : ℝ) (v : D) : tcMatvec r' alfa beta v = tcMatvec r alfa beta v := by simp only [tcMatvec, S.ADDT, S.BDDT]

theorem BelowRB.rhs (s : RBSt κ B D) : computeRHSRB r' (s.pull j) = ((computeRHSRB r s).1.pull j, (fun k => (computeRHSRB r s).2.1 (j k)),
    (fun k => (computeRHSRB r s).2.2.1 (j k)), fun k => (computeRHSRB r s).2.2.2 (j k)) := by
  have h1 : computeRHS r'.c (s.pull j).s = _ := S.base.rhs s.s
  have h2 : Channel.divRB r' (meanVel (s.pull j).s.U (s.pull j).s.U0) (phiAb (s.pull j).phi0 (s.pull j).phi1) =
      fun k => Channel.divRB r (meanVel s.s.U s.s.U0) (phiAb s.phi0 s.phi1) (j k) := S.divRB (meanVel s.s.U s.s.U0) (phiAb s.phi0 s.phi1)
  have h3 : ∀ k, Channel.buoyancy r' (phiAb (s.pull j).phi0 (s.pull j).phi1) k = Channel.buoyancy r (phiAb s.phi0 s.phi1) (j k) :=
    fun k => S.buoyancy (phiAb s.phi0 s.phi1) k
  unfold computeRHSRB
  simp only [h1, h2, h3, S.maskT, S.tc, S.kappa, S.base.dt, S.base.Ksq]
  rfl

theorem BelowRB.tick (la : LA κ B D) (solveT : κ → D → D) (s : RBSt κ B D) :
    tickRB r' (la.pull j) (fun k => solveT (j k)) (s.pull j) = (tickRB r la solveT s).pull j := by
  unfold tickRB integrateRB solveLinearRB endOfTstepRB
  have h1 : (computeRHSRB r' (s.pull j)) = _ := S.rhs s
  have h2 := S.base.solve la (computeRHSRB r s).1.s (computeRHSRB r s).2.1 (computeRHSRB r s).2.2.1
  have h3 : ((computeRHSRB r s).1.pull j).s = (computeRHSRB r s).1.s.pull j := rfl
  simp only [h1, h3, h2, S.bcp, S.bcq]
  rfl

theorem BelowRB.substep {convT : Vel κ B D → Temp κ D → κ → D} {convT' : Vel κ' B D → Temp κ' D → κ' → D}
    (hT : ∀ U phi, convT' (Vel.pull j U) (Temp.pull j phi) = fun k => convT U phi (j k)) (la : Fin 3 → LA κ B D) (solveT : Fin 3 → κ → D → D) (rk : Fin 3) (s : RB3St κ B D) :
    substepRB r' convT' (fun rk => (la rk).pull j) (fun rk k => solveT rk (j k)) rk (s.pull j) = (substepRB r convT la solveT rk s).pull j := by
  have h1 : computeRHS3 r'.c rk (s.pull j).s = _ := S.base.rhs3 rk s.s
  have h2 : convT' (s.pull j).s.U (s.pull j).phi = fun k => convT s.s.U s.phi (j k) := hT _ _
  have h3 : ∀ k, Channel.buoyancy r' (s.pull j).phi k = Channel.buoyancy r s.phi (j k) := fun k => S.buoyancy s.phi k
  have h4 := S.base.solve3 rk (la rk) (computeRHS3 r.c rk s.s).1
    (fun k => (computeRHS3 r.c rk s.s).2.1 k + ((r.c.dt * (rkA rk + rkB rk) : ℝ) : ℂ) • Channel.buoyancy r s.phi k) (computeRHS3 r.c rk s.s).2.2
  unfold substepRB
  simp only [h1, h2, h3, S.maskT, S.tc, S.kappa, S.base.dt, S.base.Ksq, S.bcp, S.bcq]
  rw [h4]
  rfl

theorem BelowRB.integrate3 {convT : Vel κ B D → Temp κ D → κ → D} {convT' : Vel κ' B D → Temp κ' D → κ' → D}
    (hT : ∀ U phi, convT' (Vel.pull j U) (Temp.pull j phi) = fun k => convT U phi (j k)) (la : Fin 3 → LA κ B D) (solveT : Fin 3 → κ → D → D) (s : RB3St κ B D) :
    integrateRB3 r' convT' (fun rk => (la rk).pull j) (fun rk k => solveT rk (j k)) (s.pull j) = (integrateRB3 r convT la solveT s).pull j := by
  unfold integrateRB3
  rw [S.substep hT, S.substep hT, S.substep hT]

end

section
variable {κ κ' P P' : Type*} {T : Space κ P} {T' : Space κ' P'} {j : κ' → κ} (R : Retains T T' j) (q : Quad) (n : ℕ)
include R

theorem Retains.prodB (phi : Temp κ (Fin (n + 2) → ℂ)) (u : κ → Fin n → ℂ) (k : κ') :
    prodBwall q n T' (phi.pull j) (fun k => u (j k)) k = prodBwall q n T phi u (j k) := by
  unfold prodBwall
  congr 1
  funext p
  exact R.product (fun k => (tempPoly (phi.d k) (phi.p k) (phi.q k)).eval _) (fun k => ((chebWall q n).fB (u k)).eval _) k

theorem Retains.prodD (phi : Temp κ (Fin (n + 2) → ℂ)) (v : κ → Fin (n + 2) → ℂ) (k : κ') :
    prodDwall q n T' (phi.pull j) (fun k => v (j k)) k = prodDwall q n T phi v (j k) :=
  R.fwd (chebWall q n) (chebWall .GC n).x (chebWall q n).x (fun k => tempPoly (phi.d k) (phi.p k) (phi.q k)) (fun k => (chebWall q n).fD (v k)) k

theorem Retains.standardRB {Q : Type*} (W : Wall (Fin n → ℂ) (Fin (n + 2) → ℂ) (Fin (n + 4) → ℂ) Q) (G : Grid κ) (z : κ')
    (U : Vel κ (Fin n → ℂ) (Fin (n + 2) → ℂ)) (phi : Temp κ (Fin (n + 2) → ℂ)) :
    standardRB q n W T' (G.pull j z) (U.pull j) (phi.pull j) = fun k => standardRB q n W T G U phi (j k) := by
  have u := fun i => follows_velocity (T := T) (T' := T') (j := j) U W i
  have hx := follows_C (T := T) (T' := T') (j := j) W fun k => dTdxHat q n (phi.d k) (phi.p k) (phi.q k)
  have hy := follows_D (T := T) (T' := T') (j := j) W (ik G.K1 phi.d)
  have hz := follows_D (T := T) (T' := T') (j := j) W (ik G.K2 phi.d)
  funext k
  unfold Channel.standardRB
  congr 1
  rw [fwdD_add R.add', fwdD_add R.add', fwdD_add R.add, fwdD_add R.add]
  simp only [Pi.add_apply]
  rw [← (u 0).mul R W hx, ← (u 1).mul R W hy, ← (u 2).mul R W hz]
  rfl

end

end SpectralDNS.Channel

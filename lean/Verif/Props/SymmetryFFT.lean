import Verif.Props.Symmetry
import Verif.Lemmas.SymmetryFFT
import Verif.Props.Weak

/-!
# C84: the periodic solvers commute with the motions of the box

A motion permutes axes with the same number of points and the same length, reflects axes, and displaces the flow.  Started from the moved
field (and driven by the moved source) a solver computes the moved flow.
-/

namespace SpectralDNS.Periodic

open Complex Spec Dealias Torus

variable {n : ℕ}

/-- The solvers with the transforms of the mesh `N`, products formed on the grid `M` (`M = N` without dealiasing, `M = 3N/2` with the 3/2-rule), and
the Nyquist mask; as `padCtx` otherwise. -/
noncomputable def gridCtx (N M : Fin (n + 1) → ℕ) (L : Fin (n + 1) → ℝ) (nu : ℝ) (Source : SArr (n + 1) (RModes N)) : Ctx (n + 1) (RModes N) (Grid M) :=
  ⟨rspace N M, scaledWaves N L, nu, some (nyquistMask N), Source⟩

/-- The fields that a solver stores: the Nyquist modes are zero, and the array comes from a real function. -/
def Stored (N : Fin (n + 1) → ℕ) (a : RModes N → ℂ) : Prop := Unmasked N a ∧ IsReal N a

/-- A motion that the grids can follow: any displacement with the 3/2-rule, otherwise whole grid cells. -/
structure Motion (N M : Fin (n + 1) → ℕ) (L : Fin (n + 1) → ℝ) (π : Equiv.Perm (Fin (n + 1))) (h : Fin (n + 1) → ℝ) : Prop where
  meshN : ∀ i, N (π i) = N i
  meshM : ∀ i, M (π i) = M i
  box : ∀ i, L (π i) = L i
  posN : ∀ i, 0 < N i
  posM : ∀ i, 0 < M i
  posL : ∀ i, L i ≠ 0
  displacement : (∀ i, M i = padded (N i)) ∨ ∃ m : Fin (n + 1) → ℤ, ∀ i, h i = L i * m i / M i

theorem Motion.symm {N M : Fin (n + 1) → ℕ} {L : Fin (n + 1) → ℝ} {π : Equiv.Perm (Fin (n + 1))} {h : Fin (n + 1) → ℝ} (H : Motion N M L π h)
    (s : Fin (n + 1) → ℤˣ) : Symm (rspace N M) (scaledWaves N L) (some (nyquistMask N)) (act N L π s h) π s := by
  refine act_symm N M L π s h H.meshN H.meshM H.box H.posM ?_
  rcases H.displacement with e | ⟨m, e⟩
  · obtain rfl : M = fun i => padded (N i) := _root_.funext e
    exact displacement_padded N H.posN L h
  · obtain rfl : h = fun i => L i * m i / M i := _root_.funext e
    exact fun p _ q _ k _ hd => displacement_grid M H.posM L H.posL m p q k hd

/-- A stored array is determined by its function. -/
theorem stored_ext (N : Fin (n + 1) → ℕ) (hN : ∀ i, 0 < N i) (L : Fin (n + 1) → ℝ) (hL : ∀ i, L i ≠ 0) (a b : RModes N → ℂ) (ha : Stored N a)
    (hb : Stored N b) (h : ∀ x, fn N L a x = fn N L b x) : a = b := by
  rw [← rspace_inverse N N hN (fun _ => le_rfl) a ha.1 ha.2, ← rspace_inverse N N hN (fun _ => le_rfl) b hb.1 hb.2]
  congr 1
  funext x
  rw [C83_grid N L N hL, C83_grid N L N hL, h]

theorem fn_sgR (N : Fin (n + 1) → ℕ) (L : Fin (n + 1) → ℝ) (z : ℤˣ) (a : RModes N → ℂ) (x : Fin (n + 1) → ℝ) :
    fn N L (sgR z • a) x = ((z : ℤ) : ℝ) * fn N L a x := by
  simp only [fn, trigField, sgR, Pi.smul_apply, real_smul]
  rw [← re_ofReal_mul, Finset.mul_sum]
  exact congrArg re (Finset.sum_congr rfl fun k _ => by ring)

section
variable {N M : Fin (n + 1) → ℕ} {L : Fin (n + 1) → ℝ} {π : Equiv.Perm (Fin (n + 1))} {h : Fin (n + 1) → ℝ} (H : Motion N M L π h) (s : Fin (n + 1) → ℤˣ)
include H

theorem scalar_moved (z : ℤˣ) (a : RModes N → ℂ) (ha : Unmasked N a) : MovedScalar π s h z (fn N L a) (fn N L (sgR z • act N L π s h a)) := fun x => by
  rw [fn_sgR]
  exact congrArg _ (act_field N L π s h H.meshN H.box a ha x)

theorem scalar_of_moved (z : ℤˣ) (a a' : RModes N → ℂ) (ha : Unmasked N a) (ha' : Stored N a') (hm : MovedScalar π s h z (fn N L a) (fn N L a')) :
    a' = sgR z • act N L π s h a := by
  refine stored_ext N H.posN L H.posL _ _ ha' ⟨vanishes_smul (mask := some (nyquistMask N)) (act_unmasked N L π s h a) _, ?_⟩ fun x => ?_
  · intro k k' hk
    simp only [Pi.smul_apply, real_smul, map_mul, conj_ofReal, act_isReal N L π s h a k k' hk]
  · rw [hm x, ← scalar_moved H s z a ha x]

theorem vector_moved (z : ℤˣ) (u : SArr (n + 1) (RModes N)) (hu : ∀ i, Unmasked N (u i)) :
    Moved π s h z (fun i => fn N L (u i)) (fun i => fn N L ((sgR z • turn (act N L π s h) π s u) i)) := fun i x => by
  show fn N L (sgR z • sgR (s i) • act N L π s h (u (π i))) x = _
  rw [fn_sgR, fn_sgR]
  exact congrArg _ (congrArg _ (act_field N L π s h H.meshN H.box _ (hu _) x))

theorem vector_of_moved (z : ℤˣ) (u u' : SArr (n + 1) (RModes N)) (hu : ∀ i, Unmasked N (u i)) (hu' : ∀ i, Stored N (u' i))
    (hm : Moved π s h z (fun i => fn N L (u i)) (fun i => fn N L (u' i))) : u' = sgR z • turn (act N L π s h) π s u := by
  funext i
  refine stored_ext N H.posN L H.posL _ _ (hu' i) ⟨vanishes_smul (mask := some (nyquistMask N)) (vanishes_smul (mask := some (nyquistMask N)) (act_unmasked N L π s h _) _) _, ?_⟩ fun x => ?_
  · intro k k' hk
    show (sgR z • sgR (s i) • act N L π s h (u (π i))) k' = (starRingEnd ℂ) ((sgR z • sgR (s i) • act N L π s h (u (π i))) k)
    simp only [Pi.smul_apply, real_smul, map_mul, conj_ofReal, act_isReal N L π s h _ k k' hk]
  · exact (hm i x).trans (vector_moved H s z u hu i x).symm

end

/-- Every velocity can be moved, so the hypotheses of the theorems below can be met from any start. -/
theorem exists_moved {N M : Fin (n + 1) → ℕ} {L : Fin (n + 1) → ℝ} {π : Equiv.Perm (Fin (n + 1))} {h : Fin (n + 1) → ℝ} (H : Motion N M L π h)
    (s : Fin (n + 1) → ℤˣ) (z : ℤˣ) (u : SArr (n + 1) (RModes N)) (hu : ∀ i, Unmasked N (u i)) :
    ∃ u' : SArr (n + 1) (RModes N), (∀ i, Stored N (u' i)) ∧ Moved π s h z (fun i => fn N L (u i)) (fun i => fn N L (u' i)) := by
  refine ⟨sgR z • turn (act N L π s h) π s u, fun i => ⟨vanishes_smul (mask := some (nyquistMask N))
    (vanishes_smul (mask := some (nyquistMask N)) (act_unmasked N L π s h _) _) _, fun k k' hk => ?_⟩, vector_moved H s z u hu⟩
  show (sgR z • sgR (s i) • act N L π s h (u (π i))) k' = (starRingEnd ℂ) ((sgR z • sgR (s i) • act N L π s h (u (π i))) k)
  simp only [Pi.smul_apply, real_smul, map_mul, conj_ofReal, act_isReal N L π s h _ k k' hk]

theorem rspace_additive (N M : Fin (n + 1) → ℕ) : Additive (rspace N M) := dft_additive _ _

theorem sgR_one : sgR 1 = 1 := by simp [sgR]

/-- The arrays with zero Nyquist modes. -/
def unmaskedV (d : ℕ) (N : Fin (n + 1) → ℕ) : Submodule ℝ (SArr d (RModes N)) where
  carrier := {u | ∀ i, Unmasked N (u i)}
  add_mem' hu hv i k hk := by simp [hu i k hk, hv i k hk]
  zero_mem' _ _ _ := rfl
  smul_mem' t u hu i k hk := by simp [hu i k hk]

/-- Runs of solvers whose right-hand sides correspond under `Φ`. -/
theorem moved_run {V V' : Type*} [AddCommGroup V] [Module ℝ V] [AddCommGroup V'] [Module ℝ V'] (Φ : V →ₗ[ℝ] V') (W : Submodule ℝ V) (F : V → V → V) (F' : V' → V' → V')
    (hF : ∀ r, ∀ u ∈ W, F r u ∈ W) (hc : ∀ r r', ∀ u ∈ W, F' r' (Φ u) = Φ (F r u)) (est : V → V → V → PyF) (est' : V' → V' → V' → PyF) (fuel : ℕ) (m : Method) (hb : m ≠ .BS5 true)
    (ds : List ℝ) (tstep : ℕ) (rhs : V) (rhs' : V') (u : V) (hu : u ∈ W) (r : Closure V) (h : runSteps F est fuel m tstep ds (getintegrator rhs u) = some r) :
    ∃ r', runSteps F' est' fuel m tstep ds (getintegrator rhs' (Φ u)) = some r' ∧ r.u0 ∈ W ∧ r'.u0 = Φ r.u0 := by
  have H : Intertwines Φ (W : Set V) W F F' := ⟨fun _ hu _ hw => W.add_mem hu hw, hF, hc⟩
  obtain ⟨r', h1, h2⟩ := run_map H est est' m (fun e => absurd e hb) fuel ds tstep rhs u rhs' hu (fun _ => Or.inr hu) r h
  exact ⟨r', h1, run_mem F W W (fun _ hu _ hw => W.add_mem hu hw) hF est fuel m ds tstep rhs u hu (fun _ => Or.inr hu) r h, h2⟩

theorem rhsNS_unmaskedG (N M : Fin (n + 1) → ℕ) (L : Fin (n + 1) → ℝ) (nu : ℝ) (Source : SArr (n + 1) (RModes N)) (hsm : ∀ i, Unmasked N (Source i)) (conv) (rhs u : SArr (n + 1) (RModes N))
    (hm : ∀ i, Unmasked N (u i)) (i : Fin (n + 1)) : Unmasked N (rhsNS (gridCtx N M L nu Source) conv rhs u i) := fun k hk => by
  simp [rhsNS, ComputeRHS, add_pressure_diffusion, gridCtx, maskNyquist, hk, hsm i k hk, hm i k hk]

/-- C84.  NS, any of the four forms of convection, any mesh and box, any integrator with fixed steps. -/
theorem C84_NS (N M : Fin 3 → ℕ) (L : Fin 3 → ℝ) (π : Equiv.Perm (Fin 3)) (s : Fin 3 → ℤˣ) (h : Fin 3 → ℝ) (H : Motion N M L π h) (nu : ℝ)
    (Source Source' : SArr 3 (RModes N)) (hS : ∀ i, Unmasked N (Source i)) (hS' : ∀ i, Stored N (Source' i))
    (hSm : Moved π s h 1 (fun i => fn N L (Source i)) (fun i => fn N L (Source' i))) (name : String) (conv)
    (hname : getConvection name = some conv) (w w' : Scratch 3 (RModes N) (Grid M)) (est est' : SArr 3 (RModes N) → SArr 3 (RModes N) → SArr 3 (RModes N) → PyF)
    (fuel : ℕ) (m : Method) (hb : m ≠ .BS5 true) (ds : List ℝ) (tstep : ℕ) (rhs rhs' u u' : SArr 3 (RModes N)) (hu : ∀ i, Unmasked N (u i)) (hu' : ∀ i, Stored N (u' i))
    (hum : Moved π s h 1 (fun i => fn N L (u i)) (fun i => fn N L (u' i))) (r : Closure (SArr 3 (RModes N)))
    (hr : runSteps (rhsNS (gridCtx N M L nu Source) fun r u => conv w r u (rspace N M) (scaledWaves N L)) est fuel m tstep ds (getintegrator rhs u) = some r) :
    ∃ r', runSteps (rhsNS (gridCtx N M L nu Source') fun r u => conv w' r u (rspace N M) (scaledWaves N L)) est' fuel m tstep ds (getintegrator rhs' u') = some r' ∧
      Moved π s h 1 (fun i => fn N L (r.u0 i)) (fun i => fn N L (r'.u0 i)) := by
  have e := vector_of_moved H s 1 u u' hu hu' hum
  have eS := vector_of_moved H s 1 Source Source' hS hS' hSm
  rw [sgR_one, one_smul] at e eS
  subst e
  have hc : ∀ r r', ∀ u ∈ unmaskedV 3 N, rhsNS (gridCtx N M L nu Source') (fun r u => conv w' r u (rspace N M) (scaledWaves N L)) r' (turn (act N L π s h) π s u) =
      turn (act N L π s h) π s (rhsNS (gridCtx N M L nu Source) (fun r u => conv w r u (rspace N M) (scaledWaves N L)) r u) := fun r r' u hu =>
    rhsNS_turn (gridCtx N M L nu Source) (gridCtx N M L nu Source') (H.symm s) rfl rfl rfl eS _ _ r r' u
      (turn_conv (H.symm s) (rspace_additive N M) name conv hname w w' r r' u hu)
  obtain ⟨r', h1, h2, h3⟩ := moved_run (turn (act N L π s h) π s) (unmaskedV 3 N) _ _
    (fun r u hu => rhsNS_unmaskedG N M L nu Source hS _ r u hu) hc est est' fuel m hb ds tstep rhs rhs' u hu r hr
  refine ⟨r', h1, ?_⟩
  have := vector_moved H s 1 r.u0 h2
  rwa [sgR_one, one_smul, ← h3] at this

/-- C84.  NS2D. -/
theorem C84_NS2D (N M : Fin 2 → ℕ) (L : Fin 2 → ℝ) (π : Equiv.Perm (Fin 2)) (s : Fin 2 → ℤˣ) (h : Fin 2 → ℝ) (H : Motion N M L π h) (nu : ℝ)
    (Source Source' : SArr 2 (RModes N)) (hS : ∀ i, Unmasked N (Source i)) (hS' : ∀ i, Stored N (Source' i))
    (hSm : Moved π s h 1 (fun i => fn N L (Source i)) (fun i => fn N L (Source' i))) (w w' : RModes N → ℂ)
    (est est' : SArr 2 (RModes N) → SArr 2 (RModes N) → SArr 2 (RModes N) → PyF)
    (fuel : ℕ) (m : Method) (hb : m ≠ .BS5 true) (ds : List ℝ) (tstep : ℕ) (rhs rhs' u u' : SArr 2 (RModes N)) (hu : ∀ i, Unmasked N (u i)) (hu' : ∀ i, Stored N (u' i))
    (hum : Moved π s h 1 (fun i => fn N L (u i)) (fun i => fn N L (u' i))) (r : Closure (SArr 2 (RModes N)))
    (hr : runSteps (rhsNS (gridCtx N M L nu Source) fun r u => conv2DVortex w r u (rspace N M) (scaledWaves N L)) est fuel m tstep ds (getintegrator rhs u) = some r) :
    ∃ r', runSteps (rhsNS (gridCtx N M L nu Source') fun r u => conv2DVortex w' r u (rspace N M) (scaledWaves N L)) est' fuel m tstep ds (getintegrator rhs' u') = some r' ∧
      Moved π s h 1 (fun i => fn N L (r.u0 i)) (fun i => fn N L (r'.u0 i)) := by
  have e := vector_of_moved H s 1 u u' hu hu' hum
  have eS := vector_of_moved H s 1 Source Source' hS hS' hSm
  rw [sgR_one, one_smul] at e eS
  subst e
  have hc : ∀ r r', ∀ u ∈ unmaskedV 2 N, rhsNS (gridCtx N M L nu Source') (fun r u => conv2DVortex w' r u (rspace N M) (scaledWaves N L)) r' (turn (act N L π s h) π s u) =
      turn (act N L π s h) π s (rhsNS (gridCtx N M L nu Source) (fun r u => conv2DVortex w r u (rspace N M) (scaledWaves N L)) r u) := fun r r' u hu =>
    rhsNS_turn (gridCtx N M L nu Source) (gridCtx N M L nu Source') (H.symm s) rfl rfl rfl eS _ _ r r' u
      (by simp only [conv2D_lamb2]; exact _root_.funext fun i => turn_lamb2 (H.symm s) (rspace_additive N M) u hu i)
  obtain ⟨r', h1, h2, h3⟩ := moved_run (turn (act N L π s h) π s) (unmaskedV 2 N) _ _
    (fun r u hu => rhsNS_unmaskedG N M L nu Source hS _ r u hu) hc est est' fuel m hb ds tstep rhs rhs' u hu r hr
  refine ⟨r', h1, ?_⟩
  have := vector_moved H s 1 r.u0 h2
  rwa [sgR_one, one_smul, ← h3] at this

/-- C84.  VV: the vorticity also takes the sign of the determinant of the motion. -/
theorem C84_VV (N M : Fin 3 → ℕ) (L : Fin 3 → ℝ) (π : Equiv.Perm (Fin 3)) (s : Fin 3 → ℤˣ) (h : Fin 3 → ℝ) (H : Motion N M L π h) (nu : ℝ)
    (Source Source' : SArr 3 (RModes N)) (hS : ∀ i, Unmasked N (Source i)) (hS' : ∀ i, Stored N (Source' i))
    (hSm : Moved π s h (Equiv.Perm.sign π * ∏ i, s i) (fun i => fn N L (Source i)) (fun i => fn N L (Source' i)))
    (w w' : Scratch 3 (RModes N) (Grid M)) (est est' : SArr 3 (RModes N) → SArr 3 (RModes N) → SArr 3 (RModes N) → PyF)
    (fuel : ℕ) (m : Method) (hb : m ≠ .BS5 true) (ds : List ℝ) (tstep : ℕ) (rhs rhs' u u' : SArr 3 (RModes N)) (hu : ∀ i, Unmasked N (u i)) (hu' : ∀ i, Stored N (u' i))
    (hum : Moved π s h (Equiv.Perm.sign π * ∏ i, s i) (fun i => fn N L (u i)) (fun i => fn N L (u' i))) (r : Closure (SArr 3 (RModes N)))
    (hr : runSteps (rhsVV (gridCtx N M L nu Source) w) est fuel m tstep ds (getintegrator rhs u) = some r) :
    ∃ r', runSteps (rhsVV (gridCtx N M L nu Source') w') est' fuel m tstep ds (getintegrator rhs' u') = some r' ∧
      Moved π s h (Equiv.Perm.sign π * ∏ i, s i) (fun i => fn N L (r.u0 i)) (fun i => fn N L (r'.u0 i)) := by
  have e := vector_of_moved H s (detOf π s) u u' hu hu' hum
  have eS := vector_of_moved H s (detOf π s) Source Source' hS hS' hSm
  subst e
  have hF : ∀ r, ∀ u ∈ unmaskedV 3 N, rhsVV (gridCtx N M L nu Source) w r u ∈ unmaskedV 3 N := fun r u hu i k hk => by
    rw [rhsVV_D _ (rspace_additive N M)]
    simp [gridCtx, curl, cross, D, Spec.deriv, hS i k hk, hu i k hk, keepL, pr, keeps, hk]
  have hc : ∀ r r', ∀ u ∈ unmaskedV 3 N, rhsVV (gridCtx N M L nu Source') w' r' ((sgR (detOf π s) • turn (act N L π s h) π s) u) =
      (sgR (detOf π s) • turn (act N L π s h) π s) (rhsVV (gridCtx N M L nu Source) w r u) := fun r r' u hu =>
    rhsVV_turn (gridCtx N M L nu Source) (gridCtx N M L nu Source') (rspace_additive N M) (H.symm s) rfl rfl rfl rfl eS w w' r r' u hu
  obtain ⟨r', h1, h2, h3⟩ := moved_run (sgR (detOf π s) • turn (act N L π s h) π s) (unmaskedV 3 N) _ _ hF hc est est' fuel m hb ds tstep rhs rhs' u hu r hr
  refine ⟨r', h1, ?_⟩
  have := vector_moved H s (detOf π s) r.u0 h2
  rw [h3]
  exact this

/-- C84.  MHD: the magnetic field is carried along like the velocity, with either sign. -/
theorem C84_MHD (N M : Fin 3 → ℕ) (L : Fin 3 → ℝ) (π : Equiv.Perm (Fin 3)) (s : Fin 3 → ℤˣ) (h : Fin 3 → ℝ) (H : Motion N M L π h) (nu eta : ℝ) (z : ℤˣ)
    (Source : SArr 3 (RModes N)) (est est' : SArr 3 (RModes N) × SArr 3 (RModes N) → SArr 3 (RModes N) × SArr 3 (RModes N) → SArr 3 (RModes N) × SArr 3 (RModes N) → PyF)
    (fuel : ℕ) (m : Method) (hb : m ≠ .BS5 true) (ds : List ℝ) (tstep : ℕ) (rhs rhs' u u' : SArr 3 (RModes N) × SArr 3 (RModes N))
    (hu : ∀ i, Unmasked N (u.1 i) ∧ Unmasked N (u.2 i)) (hu' : ∀ i, Stored N (u'.1 i) ∧ Stored N (u'.2 i))
    (hum : Moved π s h 1 (fun i => fn N L (u.1 i)) (fun i => fn N L (u'.1 i)) ∧ Moved π s h z (fun i => fn N L (u.2 i)) (fun i => fn N L (u'.2 i)))
    (r : Closure (SArr 3 (RModes N) × SArr 3 (RModes N)))
    (hr : runSteps (rhsMHD (gridCtx N M L nu Source) eta fun _ ub => convMHD ub (rspace N M) (scaledWaves N L)) est fuel m tstep ds (getintegrator rhs u) = some r) :
    ∃ r', runSteps (rhsMHD (gridCtx N M L nu Source) eta fun _ ub => convMHD ub (rspace N M) (scaledWaves N L)) est' fuel m tstep ds (getintegrator rhs' u') = some r' ∧
      Moved π s h 1 (fun i => fn N L (r.u0.1 i)) (fun i => fn N L (r'.u0.1 i)) ∧ Moved π s h z (fun i => fn N L (r.u0.2 i)) (fun i => fn N L (r'.u0.2 i)) := by
  have e1 := vector_of_moved H s 1 u.1 u'.1 (fun i => (hu i).1) (fun i => (hu' i).1) hum.1
  have e2 := vector_of_moved H s z u.2 u'.2 (fun i => (hu i).2) (fun i => (hu' i).2) hum.2
  rw [sgR_one, one_smul] at e1
  obtain rfl : u' = (turn (act N L π s h) π s u.1, sgR z • turn (act N L π s h) π s u.2) := Prod.ext e1 e2
  set F := rhsMHD (gridCtx N M L nu Source) eta fun _ ub => convMHD ub (rspace N M) (scaledWaves N L) with hFd
  let Φ := LinearMap.prodMap (turn (act N L π s h) π s) (sgR z • turn (act N L π s h) π s)
  have hF : ∀ r, ∀ u ∈ (unmaskedV 3 N).prod (unmaskedV 3 N), F r u ∈ (unmaskedV 3 N).prod (unmaskedV 3 N) := fun r u hu =>
    ⟨fun i k hk => by simp [F, rhsMHD, add_pressure_diffusionMHD, gridCtx, maskNyquist, hk, hu.1 i k hk],
      fun i k hk => by simp [F, rhsMHD, add_pressure_diffusionMHD, gridCtx, maskNyquist, hk, hu.2 i k hk]⟩
  have hc : ∀ r r', ∀ u ∈ (unmaskedV 3 N).prod (unmaskedV 3 N), F r' (Φ u) = Φ (F r u) := fun r r' u hu =>
    rhsMHD_turn (gridCtx N M L nu Source) eta (rspace_additive N M) z (H.symm s) r r' u.1 u.2 hu.1 hu.2
  obtain ⟨r', h1, h2, h3⟩ := moved_run Φ _ F F hF hc est est' fuel m hb ds tstep rhs rhs' u ⟨fun i => (hu i).1, fun i => (hu i).2⟩ r hr
  refine ⟨r', h1, ?_, ?_⟩
  · have := vector_moved H s 1 r.u0.1 h2.1
    rw [sgR_one, one_smul] at this
    rw [h3]
    exact this
  · have := vector_moved H s z r.u0.2 h2.2
    rw [h3]
    exact this

/-- C84.  Bq2D: both axes may be reflected and the flow displaced; upside down the density changes sign. -/
theorem C84_Bq (N M : Fin 2 → ℕ) (L : Fin 2 → ℝ) (s : Fin 2 → ℤˣ) (h : Fin 2 → ℝ) (H : Motion N M L 1 h) (nu Ri Pr : ℝ)
    (Source : SArr 2 (RModes N)) (w w' : SArr 2 (RModes N)) (est est' : SArr 2 (RModes N) × (RModes N → ℂ) → SArr 2 (RModes N) × (RModes N → ℂ) → SArr 2 (RModes N) × (RModes N → ℂ) → PyF)
    (fuel : ℕ) (m : Method) (hb : m ≠ .BS5 true) (ds : List ℝ) (tstep : ℕ) (rhs rhs' u u' : SArr 2 (RModes N) × (RModes N → ℂ))
    (hu : (∀ i, Unmasked N (u.1 i)) ∧ Unmasked N u.2) (hu' : (∀ i, Stored N (u'.1 i)) ∧ Stored N u'.2)
    (hum : Moved 1 s h 1 (fun i => fn N L (u.1 i)) (fun i => fn N L (u'.1 i)) ∧ MovedScalar 1 s h (s 1) (fn N L u.2) (fn N L u'.2))
    (r : Closure (SArr 2 (RModes N) × (RModes N → ℂ)))
    (hr : runSteps (rhsBq (gridCtx N M L nu Source) Ri Pr fun r ur => convBq w r ur (rspace N M) (scaledWaves N L)) est fuel m tstep ds (getintegrator rhs u) = some r) :
    ∃ r', runSteps (rhsBq (gridCtx N M L nu Source) Ri Pr fun r ur => convBq w' r ur (rspace N M) (scaledWaves N L)) est' fuel m tstep ds (getintegrator rhs' u') = some r' ∧
      Moved 1 s h 1 (fun i => fn N L (r.u0.1 i)) (fun i => fn N L (r'.u0.1 i)) ∧ MovedScalar 1 s h (s 1) (fn N L r.u0.2) (fn N L r'.u0.2) := by
  have e1 := vector_of_moved H s 1 u.1 u'.1 hu.1 hu'.1 hum.1
  have e2 := scalar_of_moved H s (s 1) u.2 u'.2 hu.2 hu'.2 hum.2
  rw [sgR_one, one_smul] at e1
  obtain rfl : u' = (turn (act N L 1 s h) 1 s u.1, sgR (s 1) • act N L 1 s h u.2) := Prod.ext e1 e2
  let W1 : Submodule ℝ (RModes N → ℂ) :=
    { carrier := {a | Unmasked N a}
      add_mem' := fun {a b} ha hb k hk => by simp [ha k hk, hb k hk]
      zero_mem' := fun _ _ => rfl
      smul_mem' := fun t {a} ha k hk => by simp [ha k hk] }
  set F := rhsBq (gridCtx N M L nu Source) Ri Pr fun r ur => convBq w r ur (rspace N M) (scaledWaves N L) with hFd
  set F' := rhsBq (gridCtx N M L nu Source) Ri Pr fun r ur => convBq w' r ur (rspace N M) (scaledWaves N L) with hFd'
  let Φ := LinearMap.prodMap (turn (act N L 1 s h) 1 s) (sgR (s 1) • act N L 1 s h)
  have hF : ∀ r, ∀ u ∈ (unmaskedV 2 N).prod W1, F r u ∈ (unmaskedV 2 N).prod W1 := fun r u hu => by
    have h2 : ∀ k, nyquistMask N k = false → u.2 k = 0 := fun k hk => hu.2 k hk
    have h1 : ∀ i k, nyquistMask N k = false → u.1 i k = 0 := fun i k hk => hu.1 i k hk
    refine ⟨fun i k hk => ?_, fun k hk => ?_⟩
    · fin_cases i <;> simp [F, rhsBq, add_pressure_diffusionBq, gridCtx, maskNyquist, hk, h1 _ k hk, h2 k hk, Function.update]
    · simp [F, rhsBq, add_pressure_diffusionBq, gridCtx, maskNyquist, hk, h2 k hk, Function.update]
  have hc : ∀ r r', ∀ u ∈ (unmaskedV 2 N).prod W1, F' r' (Φ u) = Φ (F r u) := fun r r' u hu =>
    rhsBq_turn (gridCtx N M L nu Source) Ri Pr (rspace_additive N M) (H.symm s) w w' r r' u.1 u.2 hu.1 hu.2
  obtain ⟨r', h1, h2, h3⟩ := moved_run Φ _ F F' hF hc est est' fuel m hb ds tstep rhs rhs' u hu r hr
  refine ⟨r', h1, ?_, ?_⟩
  · have := vector_moved H s 1 r.u0.1 h2.1
    rw [sgR_one, one_smul] at this
    rw [h3]
    exact this
  · have := scalar_moved H s (s 1) r.u0.2 h2.2
    rw [h3]
    exact this

/-- The quarter turn about the third axis with any displacement, on a mesh with 8 x 8 x 6 points and the 3/2-rule. -/
example (h : Fin 3 → ℝ) : Motion ![8, 8, 6] ![12, 12, 9] ![2, 2, 5] (Equiv.swap 0 1) h where
  meshN i := by fin_cases i <;> simp [Equiv.swap_apply_def]
  meshM i := by fin_cases i <;> simp [Equiv.swap_apply_def]
  box i := by fin_cases i <;> simp [Equiv.swap_apply_def]
  posN i := by fin_cases i <;> simp
  posM i := by fin_cases i <;> simp
  posL i := by fin_cases i <;> simp
  displacement := Or.inl fun i => by fin_cases i <;> rfl

/-- Without dealiasing: a displacement by one cell along the first axis and three along the second. -/
example : Motion ![8, 6] ![8, 6] ![2, 3] 1 ![2 / 8, 3 / 2] where
  meshN _ := rfl
  meshM _ := rfl
  box _ := rfl
  posN i := by fin_cases i <;> simp
  posM i := by fin_cases i <;> simp
  posL i := by fin_cases i <;> simp
  displacement := Or.inr ⟨![1, 3], fun i => by fin_cases i <;> norm_num⟩

/-- A run of C84_NS: the flow with one mode in the third component, moved by the quarter turn and a displacement. -/
example (nu : ℝ) (h : Fin 3 → ℝ) : let N : Fin 3 → ℕ := fun _ => 8
    let M : Fin 3 → ℕ := fun _ => 12
    let u : SArr 3 (RModes N) := fun i k => if i = 2 ∧ waves N 2 k = 0 ∧ waves N 0 k = 1 ∧ waves N 1 k = 0 then 1 else 0
    ∃ u', Moved (Equiv.swap 0 1) ![-1, 1, 1] h 1 (fun i => fn N 1 (u i)) (fun i => fn N 1 (u' i)) ∧
    ∃ r r', runSteps (rhsNS (gridCtx N M 1 nu 0) fun r u => convVortex ⟨0, 0, 0⟩ r u (rspace N M) (scaledWaves N 1)) (fun _ _ _ => .fin 0) 1 .RK4 0
        [0.1, 0.3] (getintegrator 0 u) = some r ∧
      runSteps (rhsNS (gridCtx N M 1 nu 0) fun r u => convVortex ⟨0, 0, 0⟩ r u (rspace N M) (scaledWaves N 1)) (fun _ _ _ => .fin 0) 1 .RK4 0
        [0.1, 0.3] (getintegrator 0 u') = some r' ∧
      Moved (Equiv.swap 0 1) ![-1, 1, 1] h 1 (fun i => fn N 1 (r.u0 i)) (fun i => fn N 1 (r'.u0 i)) := by
  intro N M u
  have H : Motion N M 1 (Equiv.swap 0 1) h :=
    ⟨fun _ => rfl, fun _ => rfl, fun _ => rfl, fun _ => by norm_num [N], fun _ => by norm_num [M], fun _ => one_ne_zero, Or.inl fun _ => by decide⟩
  have hu : ∀ i, Unmasked N (u i) := fun i k hk => by
    refine if_neg fun h => ?_
    rw [nyquistMask, decide_eq_false_iff_not] at hk
    refine hk fun j => ?_
    fin_cases j
    · simp [h.2.2.1, N]
    · simp [h.2.2.2, N]
    · simp [h.2.1, N]
  have h0 : ∀ x, fn N 1 (0 : RModes N → ℂ) x = 0 := fun x => by simp [fn, trigField]
  obtain ⟨u', h1, h2⟩ := exists_moved H ![-1, 1, 1] 1 u hu
  obtain ⟨r, hr⟩ : ∃ r, runSteps (rhsNS (gridCtx N M 1 nu 0) fun r u => convVortex ⟨0, 0, 0⟩ r u (rspace N M) (scaledWaves N 1)) (fun _ _ _ => .fin 0) 1 .RK4 0
        [0.1, 0.3] (getintegrator 0 u) = some r := ⟨_, rfl⟩
  obtain ⟨r', h3, h4⟩ := C84_NS N M 1 (Equiv.swap 0 1) ![-1, 1, 1] h H nu 0 0 (fun _ _ _ => rfl) (fun _ => ⟨fun _ _ => rfl, fun _ _ _ => by simp⟩)
    (fun i x => by simp [h0]) "Vortex" convVortex rfl ⟨0, 0, 0⟩ ⟨0, 0, 0⟩ _ (fun _ _ _ => .fin 0) 1 .RK4 (by simp) [0.1, 0.3] 0 0 0 u u' hu h1 h2 r hr
  exact ⟨u', h2, r, r', hr, h3, h4⟩

end SpectralDNS.Periodic

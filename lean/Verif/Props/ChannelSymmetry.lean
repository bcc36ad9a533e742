import Verif.Lemmas.ChannelSymmetryRun
import Verif.Spec.ChannelMotion
import Verif.Props.SymmetryFFT
import Verif.Props.ChannelConverge

/-!
# C102: the channel solvers commute with the motions of the channel

Displacements along the walls, reflections of the streamwise and the spanwise direction, and the reflection that exchanges the walls.
-/

namespace SpectralDNS.Channel

open Polynomial Periodic Spec Spec.Field Set Dealias Torus

variable {N M : Fin 2 → ℕ} {n : ℕ} {q : Quad} {L : Fin 2 → ℝ} {hN : ∀ i, 0 < N i} {h : Fin 2 → ℝ}

theorem planeSymm (hN : ∀ i, 0 < N i) (H : Motion N M L 1 h) (s : Fin 2 → ℤˣ) :
    PlaneSymm (rspace N M) (waveGrid N L hN) (nyquistMask N) (act N L 1 s h) s where
  symm := by
    have e : (![(waveGrid N L hN).K1, (waveGrid N L hN).K2] : Fin 2 → RModes N → ℝ) = scaledWaves N L := by
      funext i; fin_cases i <;> rfl
    rw [e]
    exact H.symm s
  x1 := rfl
  x2 := rfl
  zero := waveGrid_zero N L hN H.posL
  keepZero := by
    have hz : ∀ i, waves N i (waveGrid N L hN).zero = 0 := fun i => by
      have h0 : (((waveGrid N L hN).zero i : Fin _) : ℕ) = 0 := rfl
      have := hN i
      simp only [waves, h0]
      split_ifs <;> simp
    rw [nyquistMask, decide_eq_true_iff]
    intro i
    have := hN i
    rw [hz i]
    omega
  add := rspace_additive N M

/-- The coefficients of a field that the solvers store: each comes from a real function, and the Nyquist modes are zero. -/
def StoredWall (N : Fin 2 → ℕ) {a : ℕ} (v : RModes N → Fin a → ℂ) : Prop := ∀ j, Periodic.Stored N fun k => v k j

/-- The Nyquist modes are zero. -/
def UnmaskedWall (N : Fin 2 → ℕ) {a : ℕ} (v : RModes N → Fin a → ℂ) : Prop := ∀ j, Unmasked N fun k => v k j

theorem UnmaskedWall.van {a : ℕ} {v : RModes N → Fin a → ℂ} (hv : UnmaskedWall N v) : VanA (nyquistMask N) v := fun k hk => funext fun j => hv j k hk

theorem expandC_sum (f : ℕ → ℝ[X]) {a : ℕ} (v : Fin a → ℂ) (x : ℝ) : (expandC f v).eval (x : ℂ) = ∑ j : Fin a, (((f j).eval x : ℝ) : ℂ) * v j := by
  rw [expandC_apply, eval_finsetSum]
  refine Finset.sum_congr rfl fun j _ => ?_
  have : ((f j).map Complex.ofRealHom).eval (x : ℂ) = (((f j).eval x : ℝ) : ℂ) := by
    rw [eval_map]; exact eval₂_at_apply Complex.ofRealHom x
  rw [eval_smul, this, smul_eq_mul, mul_comm]

theorem fieldOf_fn (f : ℕ → ℝ[X]) {a : ℕ} (v : RModes N → Fin a → ℂ) (x y z : ℝ) :
    fieldOf N L (fun k => expandC f (v k)) x y z = fn N L (fun k => (expandC f (v k)).eval (x : ℂ)) ![y, z] := by
  have h2 : ∀ F : Fin (1 + 1) → ℂ, ∑ i, F i = F 0 + F 1 := fun F => Fin.sum_univ_two F
  simp only [fieldOf, Field.field, fn, trigField, h2]
  rfl

theorem eval_unmasked (f : ℕ → ℝ[X]) {a : ℕ} {v : RModes N → Fin a → ℂ} (hv : UnmaskedWall N v) (x : ℝ) : Unmasked N fun k => (expandC f (v k)).eval (x : ℂ) := fun k hk => by
  simp only [hv.van k hk, map_zero, eval_zero]

theorem eval_stored (f : ℕ → ℝ[X]) {a : ℕ} {v : RModes N → Fin a → ℂ} (hv : StoredWall N v) (x : ℝ) : Periodic.Stored N fun k => (expandC f (v k)).eval (x : ℂ) := by
  refine ⟨eval_unmasked f (fun j => (hv j).1) x, fun k k' hk => ?_⟩
  simp only [expandC_sum, map_sum, map_mul, Complex.conj_ofReal]
  exact Finset.sum_congr rfl fun j _ => congrArg _ ((hv j).2 k k' hk)

theorem lift_stored (s : Fin 2 → ℤˣ) (r e : ℤˣ) {a : ℕ} (v : RModes N → Fin a → ℂ) : StoredWall N (sgR e • lift (act N L 1 s h) r v) := fun j => by
  have e1 : (fun k => (sgR e • lift (act N L 1 s h) r v) k j) = ((sgR e * sgR r ^ (j : ℕ) : ℝ)) • act N L 1 s h fun k => v k j := by
    funext k
    simp only [Pi.smul_apply, lift_apply, Complex.real_smul]
    push_cast; ring
  rw [e1]
  exact ⟨vanishes_smul (mask := some (nyquistMask N)) (act_unmasked N L 1 s h _) _, fun k k' hk => by
    simp only [Pi.smul_apply, Complex.real_smul, map_mul, Complex.conj_ofReal, act_isReal N L 1 s h _ k k' hk]⟩

theorem move_two (s : Fin 2 → ℤˣ) (h : Fin 2 → ℝ) (y z : ℝ) : move 1 s h ![y, z] = ![((s 0 : ℤ) : ℝ) * y + h 0, ((s 1 : ℤ) : ℝ) * z + h 1] := by
  funext i; fin_cases i <;> simp [move, Equiv.Perm.one_def]

theorem lift_moved (H : Motion N M L 1 h) (s : Fin 2 → ℤˣ) (r e : ℤˣ) {f : ℕ → ℝ[X]} (hf : HasPar r 0 f) {a : ℕ} (v : RModes N → Fin a → ℂ)
    (hv : UnmaskedWall N v) : MovedBetween r s h e (fieldOf N L fun k => expandC f (v k))
      (fieldOf N L fun k => expandC f ((sgR e • lift (act N L 1 s h) r v) k)) := fun x _ y z => by
  rw [fieldOf_fn, fieldOf_fn, ← move_two]
  have e1 : (fun k => (expandC f ((sgR e • lift (act N L 1 s h) r v) k)).eval (x : ℂ)) =
      sgR e • act N L 1 s h fun k => (expandC f (v k)).eval ((((r : ℤ) : ℝ) * x : ℝ) : ℂ) := by
    funext k
    simp only [expandC_sum, Pi.smul_apply, Complex.real_smul]
    rw [map_real_sum Finset.univ (fun j : Fin a => (f j).eval (((r : ℤ) : ℝ) * x)) (fun j k => v k j) k, Finset.mul_sum]
    refine Finset.sum_congr rfl fun j _ => ?_
    have h1 : (f j).eval (((r : ℤ) : ℝ) * x) = sgR r ^ (j : ℕ) * (f j).eval x := by
      have := hf j x
      rw [pow_zero, one_mul] at this
      exact this
    rw [h1, lift_apply]
    push_cast; ring
  rw [e1]
  exact scalar_moved H s e _ (eval_unmasked f hv _) ![y, z]

/-- A field whose coefficients are stored determines them. -/
theorem lift_of_moved (H : Motion N M L 1 h) (s : Fin 2 → ℤˣ) (r e : ℤˣ) {f : ℕ → ℝ[X]} (hf : HasPar r 0 f) {a : ℕ}
    (hinj : Function.Injective (expandC f : (Fin a → ℂ) →ₗ[ℂ] ℂ[X])) (v v' : RModes N → Fin a → ℂ) (hv : UnmaskedWall N v) (hv' : StoredWall N v')
    (hm : MovedBetween r s h e (fieldOf N L fun k => expandC f (v k)) (fieldOf N L fun k => expandC f (v' k))) :
    v' = sgR e • lift (act N L 1 s h) r v := by
  funext k
  refine hinj (Polynomial.eq_of_infinite_eval_eq _ _ (Set.Infinite.mono (s := ((↑) : ℝ → ℂ) '' Icc (-1 : ℝ) 1) ?_
    ((Icc_infinite (by norm_num)).image Complex.ofReal_injective.injOn)))
  rintro _ ⟨x, hx, rfl⟩
  refine congrFun (stored_ext N H.posN L H.posL _ _ (eval_stored f hv' x) (eval_stored f (lift_stored (L := L) (h := h) s r e v) x) fun w => ?_) k
  have ew : w = ![w 0, w 1] := by funext i; fin_cases i <;> rfl
  rw [ew, ← fieldOf_fn, ← fieldOf_fn, hm x hx, lift_moved H s r e hf v hv x hx]

/-- The mean flow is carried along. -/
theorem lift0_real (hN : ∀ i, 0 < N i) (H : Motion N M L 1 h) (s : Fin 2 → ℤˣ) (r : ℤˣ) {a : ℕ} (x : Fin a → ℝ) (j : Fin a) :
    lift0 (act N L 1 s h) (waveGrid N L hN) r (fun j => (x j : ℂ)) j = ((sgR r ^ (j : ℕ) * x j : ℝ) : ℂ) := by
  have S := planeSymm hN H s
  have hK : ∀ i, scaledWaves N L i (waveGrid N L hN).zero = 0 := fun i => by
    have hk := (waveGrid_zero N L hN H.posL _).2 rfl
    rw [Grid.Ksq] at hk
    have h1 : (waveGrid N L hN).K1 (waveGrid N L hN).zero = 0 := by nlinarith [mul_self_nonneg ((waveGrid N L hN).K1 (waveGrid N L hN).zero), mul_self_nonneg ((waveGrid N L hN).K2 (waveGrid N L hN).zero)]
    have h2 : (waveGrid N L hN).K2 (waveGrid N L hN).zero = 0 := by nlinarith [mul_self_nonneg ((waveGrid N L hN).K1 (waveGrid N L hN).zero), mul_self_nonneg ((waveGrid N L hN).K2 (waveGrid N L hN).zero)]
    fin_cases i
    · exact h1
    · exact h2
  have hw : ∀ i, waves N i (waveGrid N L hN).zero = 0 := fun i => by
    have h0 : (((waveGrid N L hN).zero i : Fin _) : ℕ) = 0 := rfl
    have := hN i
    simp only [waves, h0]
    split_ifs <;> simp
  let b : RModes N → ℂ := Pi.single (waveGrid N L hN).zero (x j : ℂ)
  have hb : Periodic.Stored N b := by
    refine ⟨fun k hk => Pi.single_eq_of_ne (fun e => ?_) _, fun k k' hk => ?_⟩
    · rw [e, S.keepZero] at hk
      exact absurd hk (by simp)
    · by_cases e : k = (waveGrid N L hN).zero
      · subst e
        have e' : k' = (waveGrid N L hN).zero := by
          refine (waveGrid_zero N L hN H.posL k').1 ?_
          have : ∀ i, scaledWaves N L i k' = 0 := fun i => by
            have h1 := hk i
            rw [hw i, neg_zero] at h1
            simp [scaledWaves, h1]
          have h1 : (waveGrid N L hN).K1 k' = 0 := this 0
          have h2 : (waveGrid N L hN).K2 k' = 0 := this 1
          rw [Grid.Ksq, h1, h2]; ring
        rw [e']
        simp [b]
      · have e' : k' ≠ (waveGrid N L hN).zero := by
          rintro rfl
          refine e ((waveGrid_zero N L hN H.posL k).1 ?_)
          have : ∀ i, scaledWaves N L i k = 0 := fun i => by
            have h1 := hk i
            rw [hw i] at h1
            have h2 : waves N i k = 0 := by omega
            simp [scaledWaves, h2]
          have h1 : (waveGrid N L hN).K1 k = 0 := this 0
          have h2 : (waveGrid N L hN).K2 k = 0 := this 1
          rw [Grid.Ksq, h1, h2]; ring
        simp [b, Pi.single_eq_of_ne e, Pi.single_eq_of_ne e']
  have hfn : ∀ y, fn N L b y = fn N L b 0 := fun y => by
    simp only [fn, trigField]
    congr 1
    refine Finset.sum_congr rfl fun k _ => ?_
    by_cases e : k = (waveGrid N L hN).zero
    · subst e
      simp [hK]
    · simp [b, Pi.single_eq_of_ne e]
  have hact : b = sgR 1 • act N L 1 s h b := scalar_of_moved H s 1 b b hb.1 hb fun y => by
    rw [hfn y, hfn (move _ _ _ _)]; simp
  rw [sgR_one, one_smul] at hact
  rw [lift0, lift_apply, S.σ_congr (fun _ => (x j : ℂ)) b (waveGrid N L hN).zero fun l hl => ?_, ← hact]
  · simp [b]
  · rw [(S.zero l).1 (hl.trans ((S.zero _).2 rfl))]
    simp [b]

/-- The source seen after the motion. -/
theorem source_moved (hN : ∀ i, 0 < N i) (H : Motion N M L 1 h) (s : Fin 2 → ℤˣ) (r : ℤˣ) (F F' : ℝ[X]) (hF : ∀ x, F'.eval x = ((s 0 : ℤ) : ℝ) * F.eval (((r : ℤ) : ℝ) * x)) :
    scalarProduct q (n + 4) phi (a := n + 2) (F'.map Complex.ofRealHom) =
      sgR (s 0) • lift0 (act N L 1 s h) (waveGrid N L hN) r (scalarProduct q (n + 4) phi (a := n + 2) (F.map Complex.ofRealHom)) := by
  have e : ∀ (F : ℝ[X]) (i : Fin (n + 2)), scalarProduct q (n + 4) phi (a := n + 2) (F.map Complex.ofRealHom) i =
      ((∑ j : Fin (n + 4), quadWeight q (n + 4) j * (phi i).eval (quadPoint q (n + 4) j) * F.eval (quadPoint q (n + 4) j) : ℝ) : ℂ) := fun F i => by
    have h1 : ∀ x : ℝ, (F.map Complex.ofRealHom).eval (x : ℂ) = ((F.eval x : ℝ) : ℂ) := fun x => by rw [eval_map]; exact eval₂_at_apply Complex.ofRealHom x
    simp only [scalarProduct, LinearMap.pi_apply, LinearMap.sum_apply, LinearMap.smul_apply, leval_apply, h1, smul_eq_mul]
    rw [Finset.sum_range fun j => (((quadWeight q (n + 4) j * (phi i).eval (quadPoint q (n + 4) j) : ℝ) : ℂ) * ((F.eval (quadPoint q (n + 4) j) : ℝ) : ℂ))]
    push_cast; rfl
  have e2 : scalarProduct q (n + 4) phi (a := n + 2) (F.map Complex.ofRealHom) =
      fun i : Fin (n + 2) => ((∑ j : Fin (n + 4), quadWeight q (n + 4) j * (phi i).eval (quadPoint q (n + 4) j) * F.eval (quadPoint q (n + 4) j) : ℝ) : ℂ) := funext (e F)
  funext i
  rw [Pi.smul_apply, e2, lift0_real hN H s r, e, Complex.real_smul, ← Complex.ofReal_mul, Complex.ofReal_inj, ← Equiv.sum_comp ((oppose_involutive r (n + 4)).toPerm), Finset.mul_sum, Finset.mul_sum]
  refine Finset.sum_congr rfl fun j _ => ?_
  show quadWeight q (n + 4) (oppose r j : Fin (n + 4)) * eval (quadPoint q (n + 4) (oppose r j : Fin (n + 4))) _ * eval (quadPoint q (n + 4) (oppose r j : Fin (n + 4))) _ = _
  rw [quadWeight_oppose, quadPoint_oppose, hF]
  have h1 : (phi i).eval (sgR r * quadPoint q (n + 4) j) = sgR r ^ (i : ℕ) * (phi i).eval (quadPoint q (n + 4) j) := by
    have := hasPar_phi r i (quadPoint q (n + 4) j)
    rw [pow_zero, one_mul] at this
    exact this
  have h2 : ((r : ℤ) : ℝ) * (sgR r * quadPoint q (n + 4) j) = quadPoint q (n + 4) j := by
    have := sgR_mul_self r
    rw [← mul_assoc]
    exact (congrArg (· * _) this).trans (one_mul _)
  rw [h1, h2]
  show _ * _ * (sgR (s 0) * _) = _
  ring

/-! ## The velocity -/

/-- The Nyquist modes of a velocity are zero. -/
def UnmaskedVel (N : Fin 2 → ℕ) {a b : ℕ} (U : Vel (RModes N) (Fin a → ℂ) (Fin b → ℂ)) : Prop := UnmaskedWall N U.u ∧ UnmaskedWall N U.v ∧ UnmaskedWall N U.w

/-- A velocity as the solvers store it. -/
def StoredVel (N : Fin 2 → ℕ) {a b : ℕ} (U : Vel (RModes N) (Fin a → ℂ) (Fin b → ℂ)) : Prop := StoredWall N U.u ∧ StoredWall N U.v ∧ StoredWall N U.w

/-- The flow with coefficients `U'` is the flow with coefficients `U` seen after the motion. -/
def MovedVel (q : Quad) (L : Fin 2 → ℝ) (r : ℤˣ) (s : Fin 2 → ℤˣ) (h : Fin 2 → ℝ) (U U' : Vel (RModes N) (Fin n → ℂ) (Fin (n + 2) → ℂ)) : Prop :=
  MovedFlow r s h (fieldU (chebWall q n) L U) (fieldV (chebWall q n) L U) (fieldW (chebWall q n) L U)
    (fieldU (chebWall q n) L U') (fieldV (chebWall q n) L U') (fieldW (chebWall q n) L U')

/-- The wall-normal vorticity with coefficients `g'` is that with coefficients `g` seen after the motion. -/
def MovedVort (L : Fin 2 → ℝ) (r : ℤˣ) (s : Fin 2 → ℤˣ) (h : Fin 2 → ℝ) (g g' : RModes N → Fin (n + 2) → ℂ) : Prop :=
  MovedBetween r s h (s 0 * s 1) (fieldOf N L fun k => expandC phi (g k)) (fieldOf N L fun k => expandC phi (g' k))

section
variable {r : ℤˣ} {s : Fin 2 → ℤˣ}

theorem moveVel_moved (H : Motion N M L 1 h) (r : ℤˣ) (s : Fin 2 → ℤˣ) (U : Vel (RModes N) (Fin n → ℂ) (Fin (n + 2) → ℂ)) (hU : VanVel (nyquistMask N) U) :
    MovedVel q L r s h U (moveVel (act N L 1 s h) r s U) :=
  ⟨lift_moved H s r r (hasPar_psi r) U.u fun j k hk => congrFun (hU.1 k hk) j, lift_moved H s r (s 0) (hasPar_phi r) U.v fun j k hk => congrFun (hU.2.1 k hk) j,
   lift_moved H s r (s 1) (hasPar_phi r) U.w fun j k hk => congrFun (hU.2.2 k hk) j⟩

theorem moveVel_of_moved (H : Motion N M L 1 h) {U U' : Vel (RModes N) (Fin n → ℂ) (Fin (n + 2) → ℂ)} (hU : UnmaskedVel N U) (hU' : StoredVel N U')
    (hm : MovedVel q L r s h U U') : U' = moveVel (act N L 1 s h) r s U := by
  have h1 := lift_of_moved H s r r (hasPar_psi r) Coupled.psi_injective U.u U'.u hU.1 hU'.1 hm.1
  have h2 := lift_of_moved H s r (s 0) (hasPar_phi r) Coupled.phi_injective U.v U'.v hU.2.1 hU'.2.1 hm.2.1
  have h3 := lift_of_moved H s r (s 1) (hasPar_phi r) Coupled.phi_injective U.w U'.w hU.2.2 hU'.2.2 hm.2.2
  ext1
  · exact h1
  · exact h2
  · exact h3

theorem moveG_of_moved (H : Motion N M L 1 h) {g g' : RModes N → Fin (n + 2) → ℂ} (hg : UnmaskedWall N g) (hg' : StoredWall N g')
    (hm : MovedVort L r s h g g') : g' = moveG (act N L 1 s h) r s g :=
  lift_of_moved H s r (s 0 * s 1) (hasPar_phi r) Coupled.phi_injective g g' hg hg' hm

theorem UnmaskedVel.van {U : Vel (RModes N) (Fin n → ℂ) (Fin (n + 2) → ℂ)} (h : UnmaskedVel N U) : VanVel (nyquistMask N) U := ⟨h.1.van, h.2.1.van, h.2.2.van⟩

variable {c : Ctx (RModes N) (Fin n → ℂ) (Fin (n + 2) → ℂ)} {kind : ConvKind}

theorem ChebCtx.moves (S : ChebCtx q n M L hN c kind) (hmask : c.mask = some fun k => if nyquistMask N k then 1 else 0) (H : Motion N M L 1 h) (s : Fin 2 → ℤˣ) :
    Moves q kind (rspace N M) (nyquistMask N) (act N L 1 s h) s c where
  plane := by rw [S.grid]; exact planeSymm hN H s
  mats := S.mats
  conv := S.conv
  mask := hmask

/-- Every velocity can be moved, so the hypotheses of the theorems below can be met from any start. -/
theorem exists_movedVel (H : Motion N M L 1 h) (q : Quad) (r : ℤˣ) (s : Fin 2 → ℤˣ) (U : Vel (RModes N) (Fin n → ℂ) (Fin (n + 2) → ℂ)) (hU : UnmaskedVel N U) :
    ∃ U', StoredVel N U' ∧ MovedVel q L r s h U U' :=
  ⟨moveVel (act N L 1 s h) r s U, ⟨lift_stored s r r U.u, lift_stored s r (s 0) U.v, lift_stored s r (s 1) U.w⟩, moveVel_moved H r s U hU.van⟩

theorem vorticity_moved (H : Motion N M L 1 h) (hN : ∀ i, 0 < N i) (U : Vel (RModes N) (Fin n → ℂ) (Fin (n + 2) → ℂ)) :
    vorticity (waveGrid N L hN) (moveVel (act N L 1 s h) r s U) = moveG (act N L 1 s h) r s (vorticity (waveGrid N L hN) U) := by
  have S := planeSymm hN H s
  have e : ∀ U : Vel (RModes N) (Fin n → ℂ) (Fin (n + 2) → ℂ), vorticity (waveGrid N L hN) U = ik (waveGrid N L hN).K1 U.w - ik (waveGrid N L hN).K2 U.v := fun U => rfl
  rw [e, e, moveG, moveVel, S.ik1, S.ik2, map_sub, smul_sub, mul_comm (s 1)]

theorem kmm_rel (S : ChebCtx q n M L hN c kind) (hmask : c.mask = some fun k => if nyquistMask N k then 1 else 0) (H : Motion N M L 1 h) (r : ℤˣ) (s : Fin 2 → ℤˣ)
    (F F' : ℝ[X]) (hF : ∀ x, F'.eval x = ((s 0 : ℤ) : ℝ) * F.eval (((r : ℤ) : ℝ) * x)) (hSk : c.Sk = scalarProduct q (n + 4) phi (F.map Complex.ofRealHom))
    (c' : Ctx (RModes N) (Fin n → ℂ) (Fin (n + 2) → ℂ)) (hc' : c' = { c with Sk := scalarProduct q (n + 4) phi (F'.map Complex.ofRealHom) })
    (la : LA (RModes N) (Fin n → ℂ) (Fin (n + 2) → ℂ)) (hla : la.Solves c.nu c.dt c.G c.M) (x x' : St (RModes N) (Fin n → ℂ) (Fin (n + 2) → ℂ))
    (V V' : Vel (RModes N) (Fin n → ℂ) (Fin (n + 2) → ℂ)) (p p' : RModes N → Fin (n + 2) → ℂ) (hH : x.H1 = c.conv V p) (hH' : x'.H1 = c'.conv V' p')
    (hx : UnmaskedVel N x.U ∧ UnmaskedVel N x.U0 ∧ UnmaskedVel N V ∧ UnmaskedWall N x.g ∧ UnmaskedWall N p)
    (hx' : StoredVel N x'.U ∧ StoredVel N x'.U0 ∧ StoredVel N V' ∧ StoredWall N x'.g ∧ StoredWall N p')
    (hm : MovedVel q L r s h x.U x'.U ∧ MovedVel q L r s h x.U0 x'.U0 ∧ MovedVel q L r s h V V' ∧ MovedVort L r s h x.g x'.g ∧ MovedVort L r s h p p') (m : ℕ) :
    Rel (nyquistMask N) (act N L 1 s h) r s ((tick c la id)^[m] x) ((tick c' la id)^[m] x') := by
  subst hc'
  have C := S.moves hmask H s
  have eS : ({ c with Sk := scalarProduct q (n + 4) phi (F'.map Complex.ofRealHom) } : Ctx (RModes N) (Fin n → ℂ) (Fin (n + 2) → ℂ)) = moveCtx (act N L 1 s h) r s c := by
    rw [moveCtx, hSk, S.grid, ← source_moved hN H s r F F' hF]
  have hH1 : keepVec (nyquistMask N) x'.H1 = moveVec (act N L 1 s h) r s (keepVec (nyquistMask N) x.H1) := by
    rw [hH, hH', moveVel_of_moved H hx.2.2.1 hx'.2.2.1 hm.2.2.1, moveG_of_moved H hx.2.2.2.2 hx'.2.2.2.2 hm.2.2.2.2]
    show keepVec _ (c.conv _ _) = _
    rw [C.conv]
    exact C.plane.conv q n kind V hx.2.2.1.van p hx.2.2.2.2.van
  have R : Rel (nyquistMask N) (act N L 1 s h) r s x x' :=
    ⟨moveVel_of_moved H hx.1 hx'.1 hm.1, moveVel_of_moved H hx.2.1 hx'.2.1 hm.2.1, moveG_of_moved H hx.2.2.2.1 hx'.2.2.2.1 hm.2.2.2.1, hH1, hx.1.van, hx.2.2.2.1.van⟩
  rw [eS]
  exact run_moved C hla R m

/-- **C102 (KMM).**  Two runs of KMM with the same systems, started so that velocity, previous velocity, wall-normal vorticity and the flow from which
`H_hat1` was computed are moved in the second run, and pressed by the moved source: after any number of steps the flow of the second run is the
flow of the first seen after the motion.  All forms of convection; any displacement along the walls with the 3/2-rule, otherwise whole grid cells. -/
theorem C102_kmm (S : ChebCtx q n M L hN c kind) (hmask : c.mask = some fun k => if nyquistMask N k then 1 else 0) (H : Motion N M L 1 h) (r : ℤˣ) (s : Fin 2 → ℤˣ)
    (F F' : ℝ[X]) (hF : ∀ x, F'.eval x = ((s 0 : ℤ) : ℝ) * F.eval (((r : ℤ) : ℝ) * x)) (hSk : c.Sk = scalarProduct q (n + 4) phi (F.map Complex.ofRealHom))
    (c' : Ctx (RModes N) (Fin n → ℂ) (Fin (n + 2) → ℂ)) (hc' : c' = { c with Sk := scalarProduct q (n + 4) phi (F'.map Complex.ofRealHom) })
    (la : LA (RModes N) (Fin n → ℂ) (Fin (n + 2) → ℂ)) (hla : la.Solves c.nu c.dt c.G c.M) (x x' : St (RModes N) (Fin n → ℂ) (Fin (n + 2) → ℂ))
    (V V' : Vel (RModes N) (Fin n → ℂ) (Fin (n + 2) → ℂ)) (p p' : RModes N → Fin (n + 2) → ℂ) (hH : x.H1 = c.conv V p) (hH' : x'.H1 = c'.conv V' p')
    (hx : UnmaskedVel N x.U ∧ UnmaskedVel N x.U0 ∧ UnmaskedVel N V ∧ UnmaskedWall N x.g ∧ UnmaskedWall N p)
    (hx' : StoredVel N x'.U ∧ StoredVel N x'.U0 ∧ StoredVel N V' ∧ StoredWall N x'.g ∧ StoredWall N p')
    (hm : MovedVel q L r s h x.U x'.U ∧ MovedVel q L r s h x.U0 x'.U0 ∧ MovedVel q L r s h V V' ∧ MovedVort L r s h x.g x'.g ∧ MovedVort L r s h p p') (m : ℕ) :
    MovedVel q L r s h ((tick c la id)^[m] x).U ((tick c' la id)^[m] x').U := by
  have R' := kmm_rel S hmask H r s F F' hF hSk c' hc' la hla x x' V V' p p' hH hH' hx hx' hm m
  rw [R'.U]
  exact moveVel_moved H r s _ R'.vanU

/-- **C102 (KMM, started as by MKM.py:74-79).** -/
theorem C102_kmm_start (S : ChebCtx q n M L hN c kind) (hmask : c.mask = some fun k => if nyquistMask N k then 1 else 0) (H : Motion N M L 1 h) (r : ℤˣ) (s : Fin 2 → ℤˣ)
    (F F' : ℝ[X]) (hF : ∀ x, F'.eval x = ((s 0 : ℤ) : ℝ) * F.eval (((r : ℤ) : ℝ) * x)) (hSk : c.Sk = scalarProduct q (n + 4) phi (F.map Complex.ofRealHom))
    (c' : Ctx (RModes N) (Fin n → ℂ) (Fin (n + 2) → ℂ)) (hc' : c' = { c with Sk := scalarProduct q (n + 4) phi (F'.map Complex.ofRealHom) })
    (la : LA (RModes N) (Fin n → ℂ) (Fin (n + 2) → ℂ)) (hla : la.Solves c.nu c.dt c.G c.M) (x x' : St (RModes N) (Fin n → ℂ) (Fin (n + 2) → ℂ))
    (hx : x.U0 = x.U ∧ x.g = vorticity c.G x.U ∧ x.H1 = c.conv x.U x.g) (hx' : x'.U0 = x'.U ∧ x'.g = vorticity c'.G x'.U ∧ x'.H1 = c'.conv x'.U x'.g)
    (hU : UnmaskedVel N x.U) (hU' : StoredVel N x'.U) (hm : MovedVel q L r s h x.U x'.U) (m : ℕ) :
    MovedVel q L r s h ((tick c la id)^[m] x).U ((tick c' la id)^[m] x').U := by
  have hg : UnmaskedWall N x.g := fun j k hk => by simp [hx.2.1, vorticity, hU.van.2.1 k hk, hU.van.2.2 k hk]
  have eg : x'.g = moveG (act N L 1 s h) r s x.g := by
    have : c'.G = c.G := by rw [hc']
    rw [hx'.2.1, hx.2.1, this, S.grid, moveVel_of_moved H hU hU' hm, vorticity_moved H hN]
  have hg' : StoredWall N x'.g := by rw [eg]; exact lift_stored s r _ _
  have hmg : MovedVort L r s h x.g x'.g := by rw [eg]; exact lift_moved H s r _ (hasPar_phi r) _ hg
  exact C102_kmm S hmask H r s F F' hF hSk c' hc' la hla x x' x.U x'.U x.g x'.g hx.2.2 hx'.2.2 ⟨hU, by rwa [hx.1], hU, hg, hg⟩ ⟨hU', by rwa [hx'.1], hU', hg', hg'⟩
    ⟨hm, by rwa [hx.1, hx'.1], hm, hmg, hmg⟩ m

/-- **C102 (KMMRK3).**  The same for KMMRK3, with nothing assumed about the stored arrays. -/
theorem C102_kmmrk3 (S : ChebCtx q n M L hN c kind) (hmask : c.mask = some fun k => if nyquistMask N k then 1 else 0) (H : Motion N M L 1 h) (r : ℤˣ) (s : Fin 2 → ℤˣ)
    (F F' : ℝ[X]) (hF : ∀ x, F'.eval x = ((s 0 : ℤ) : ℝ) * F.eval (((r : ℤ) : ℝ) * x)) (hSk : c.Sk = scalarProduct q (n + 4) phi (F.map Complex.ofRealHom))
    (c' : Ctx (RModes N) (Fin n → ℂ) (Fin (n + 2) → ℂ)) (hc' : c' = { c with Sk := scalarProduct q (n + 4) phi (F'.map Complex.ofRealHom) })
    (la : Fin 3 → LA (RModes N) (Fin n → ℂ) (Fin (n + 2) → ℂ)) (hla : ∀ rk, (la rk).Solves3 c.nu c.dt (rkA rk + rkB rk) c.G c.M)
    (x x' : St3 (RModes N) (Fin n → ℂ) (Fin (n + 2) → ℂ)) (hx : UnmaskedVel N x.U ∧ UnmaskedWall N x.g) (hx' : StoredVel N x'.U ∧ StoredWall N x'.g)
    (hm : MovedVel q L r s h x.U x'.U ∧ MovedVort L r s h x.g x'.g) (m : ℕ) :
    MovedVel q L r s h ((tick3 c la id)^[m] x).U ((tick3 c' la id)^[m] x').U := by
  subst hc'
  have C := S.moves hmask H s
  have eS : ({ c with Sk := scalarProduct q (n + 4) phi (F'.map Complex.ofRealHom) } : Ctx (RModes N) (Fin n → ℂ) (Fin (n + 2) → ℂ)) = moveCtx (act N L 1 s h) r s c := by
    rw [moveCtx, hSk, S.grid, ← source_moved hN H s r F F' hF]
  have R' := run3_moved C hla ⟨moveVel_of_moved H hx.1 hx'.1 hm.1, moveG_of_moved H hx.2 hx'.2 hm.2, hx.1.van, hx.2.van⟩ m
  rw [eS, R'.U]
  exact moveVel_moved H r s _ R'.vanU

/-- **C102 (a symmetric flow stays symmetric, KMM).**  If the start and the source are unchanged by the motion, so is the flow after any number of steps. -/
theorem C102_kmm_symmetric (S : ChebCtx q n M L hN c kind) (hmask : c.mask = some fun k => if nyquistMask N k then 1 else 0) (H : Motion N M L 1 h) (r : ℤˣ)
    (s : Fin 2 → ℤˣ) (F : ℝ[X]) (hF : ∀ x, F.eval x = ((s 0 : ℤ) : ℝ) * F.eval (((r : ℤ) : ℝ) * x)) (hSk : c.Sk = scalarProduct q (n + 4) phi (F.map Complex.ofRealHom))
    (la : LA (RModes N) (Fin n → ℂ) (Fin (n + 2) → ℂ)) (hla : la.Solves c.nu c.dt c.G c.M) (x : St (RModes N) (Fin n → ℂ) (Fin (n + 2) → ℂ))
    (hx : x.U0 = x.U ∧ x.g = vorticity c.G x.U ∧ x.H1 = c.conv x.U x.g) (hU : StoredVel N x.U) (hm : MovedVel q L r s h x.U x.U) (m : ℕ) :
    MovedVel q L r s h ((tick c la id)^[m] x).U ((tick c la id)^[m] x).U :=
  C102_kmm_start S hmask H r s F F hF hSk c (by rw [← hSk]) la hla x x hx hx ⟨fun j => (hU.1 j).1, fun j => (hU.2.1 j).1, fun j => (hU.2.2 j).1⟩ hU hm m

/-- **C102 (KMMRK3, started as by MKM.py:74-79).** -/
theorem C102_kmmrk3_start (S : ChebCtx q n M L hN c kind) (hmask : c.mask = some fun k => if nyquistMask N k then 1 else 0) (H : Motion N M L 1 h) (r : ℤˣ) (s : Fin 2 → ℤˣ)
    (F F' : ℝ[X]) (hF : ∀ x, F'.eval x = ((s 0 : ℤ) : ℝ) * F.eval (((r : ℤ) : ℝ) * x)) (hSk : c.Sk = scalarProduct q (n + 4) phi (F.map Complex.ofRealHom))
    (c' : Ctx (RModes N) (Fin n → ℂ) (Fin (n + 2) → ℂ)) (hc' : c' = { c with Sk := scalarProduct q (n + 4) phi (F'.map Complex.ofRealHom) })
    (la : Fin 3 → LA (RModes N) (Fin n → ℂ) (Fin (n + 2) → ℂ)) (hla : ∀ rk, (la rk).Solves3 c.nu c.dt (rkA rk + rkB rk) c.G c.M)
    (x x' : St3 (RModes N) (Fin n → ℂ) (Fin (n + 2) → ℂ)) (hx : x.g = vorticity c.G x.U) (hx' : x'.g = vorticity c'.G x'.U)
    (hU : UnmaskedVel N x.U) (hU' : StoredVel N x'.U) (hm : MovedVel q L r s h x.U x'.U) (m : ℕ) :
    MovedVel q L r s h ((tick3 c la id)^[m] x).U ((tick3 c' la id)^[m] x').U := by
  have hg : UnmaskedWall N x.g := fun j k hk => by simp [hx, vorticity, hU.van.2.1 k hk, hU.van.2.2 k hk]
  have eg : x'.g = moveG (act N L 1 s h) r s x.g := by
    have : c'.G = c.G := by rw [hc']
    rw [hx', hx, this, S.grid, moveVel_of_moved H hU hU' hm, vorticity_moved H hN]
  have hg' : StoredWall N x'.g := by rw [eg]; exact lift_stored s r _ _
  have hmg : MovedVort L r s h x.g x'.g := by rw [eg]; exact lift_moved H s r _ (hasPar_phi r) _ hg
  exact C102_kmmrk3 S hmask H r s F F' hF hSk c' hc' la hla x x' ⟨hU, hg⟩ ⟨hU', hg'⟩ ⟨hm, hmg⟩ m

/-- The equation of continuity holds for the moved flow, too. -/
theorem solenoidal_moved (H : Motion N M L 1 h) (r : ℤˣ) (s : Fin 2 → ℤˣ) (hM : c.M = chebMats q n) (hG : c.G = waveGrid N L hN)
    {U : Vel (RModes N) (Fin n → ℂ) (Fin (n + 2) → ℂ)} (hU : Solenoidal c U (vorticity c.G U)) :
    Solenoidal c (moveVel (act N L 1 s h) r s U) (vorticity c.G (moveVel (act N L 1 s h) r s U)) := by
  have P := planeSymm hN H s
  rw [← hG] at P
  refine ⟨fun k => ?_, fun k _ => rfl, ?_⟩
  · have h0 : (fun k => (chebMats q n).CDB (U.u k)) + (fun k => (chebMats q n).BDD (ik c.G.K1 U.v k)) + (fun k => (chebMats q n).BDD (ik c.G.K2 U.w k)) = 0 := by
      funext k
      have := hU.1 k
      rw [hM, SpectralDNS.Spec.Channel.Continuity, map_add, ← add_assoc] at this
      exact this
    have h1 := (par_CDB (σ := act N L 1 s h) (r := r) q n).one r U.u
    have h2 := (par_BDD (σ := act N L 1 s h) (r := r) q n).zero (s 0 * s 0) (ik c.G.K1 U.v)
    have h3 := (par_BDD (σ := act N L 1 s h) (r := r) q n).zero (s 1 * s 1) (ik c.G.K2 U.w)
    have e2 := P.ik1 (r := r) (s 0) U.v
    have e3 := P.ik2 (r := r) (s 1) U.w
    rw [← e2] at h2
    rw [← e3] at h3
    rw [sgR_mul, sgR_mul_self, one_smul] at h1 h2 h3
    have := congrArg (lift (act N L 1 s h) r) h0
    rw [map_add, map_add, ← h1, ← h2, ← h3, map_zero] at this
    rw [hM, SpectralDNS.Spec.Channel.Continuity, map_add, ← add_assoc]
    exact congrFun this k
  · show (sgR r • lift (act N L 1 s h) r U.u) c.G.zero = 0
    rw [Pi.smul_apply, P.mean, hU.2.2]
    have : lift0 (act N L 1 s h) c.G r (0 : Fin n → ℂ) = 0 := congrFun (map_zero (lift (act N L 1 s h) r)) c.G.zero
    rw [this, smul_zero]

end

/-- Runs of KMM on a mesh with `7 × 8 × 8` points and the 3/2-rule, pressed by the same constant gradient: from any flow, and from the flow with the walls exchanged, the spanwise
direction reflected and any displacement along the walls. -/
example (U : Vel (RModes ![8, 8]) (Fin 3 → ℂ) (Fin 5 → ℂ)) (hU : UnmaskedVel ![8, 8] U) (h : Fin 2 → ℝ) :
    ∃ (c : Ctx (RModes ![8, 8]) (Fin 3 → ℂ) (Fin 5 → ℂ)) (la : LA (RModes ![8, 8]) (Fin 3 → ℂ) (Fin 5 → ℂ)) (x x' : St (RModes ![8, 8]) (Fin 3 → ℂ) (Fin 5 → ℂ)),
      la.Solves c.nu c.dt c.G c.M ∧ c.Sk = scalarProduct .GL 7 phi 1 ∧ x.U = U ∧ MovedVel .GL ![1, 2] (-1) ![1, -1] h x.U x'.U ∧
      ∀ m : ℕ, MovedVel .GL ![1, 2] (-1) ![1, -1] h ((tick c la id)^[m] x).U ((tick c la id)^[m] x').U := by
  have hN : ∀ i : Fin 2, 0 < (![8, 8] : Fin 2 → ℕ) i := fun i => by fin_cases i <;> norm_num
  have H : Motion (n := 1) ![8, 8] ![12, 12] ![1, 2] 1 h := ⟨fun _ => rfl, fun _ => rfl, fun _ => rfl, hN, fun i => by fin_cases i <;> norm_num,
    fun i => by fin_cases i <;> norm_num, Or.inl fun i => by fin_cases i <;> rfl⟩
  let c : Ctx (RModes ![8, 8]) (Fin 3 → ℂ) (Fin 5 → ℂ) :=
    { nu := 1 / 100, dt := 1 / 10, G := waveGrid ![8, 8] ![1, 2] hN, M := chebMats .GL 3, mask := some fun k => if nyquistMask (n := 1) ![8, 8] k then 1 else 0,
      conv := convection .vortex (chebWall .GL 3) (rspace ![8, 8] ![12, 12]) (waveGrid ![8, 8] ![1, 2] hN),
      Sk := scalarProduct .GL 7 phi ((C 1 : ℝ[X]).map Complex.ofRealHom) }
  have S : ChebCtx .GL 3 ![12, 12] ![1, 2] hN c .vortex := ⟨fun i => by fin_cases i <;> norm_num, rfl, rfl, by norm_num [c], rfl⟩
  obtain ⟨la, hla, -⟩ := Galerkin.C75_kmm .GL 3 c.G c.nu c.dt S.visc (by norm_num [c])
  obtain ⟨U', hU', hm⟩ := exists_movedVel H .GL (-1) ![1, -1] U hU
  let x : St (RModes ![8, 8]) (Fin 3 → ℂ) (Fin 5 → ℂ) := ⟨U, vorticity c.G U, c.conv U (vorticity c.G U), c.conv U (vorticity c.G U), c.conv U (vorticity c.G U), U⟩
  let x' : St (RModes ![8, 8]) (Fin 3 → ℂ) (Fin 5 → ℂ) := ⟨U', vorticity c.G U', c.conv U' (vorticity c.G U'), c.conv U' (vorticity c.G U'), c.conv U' (vorticity c.G U'), U'⟩
  refine ⟨c, la, x, x', hla, by simp [c], rfl, hm, C102_kmm_start S rfl H (-1) ![1, -1] (C 1) (C 1) (fun y => by simp) rfl c rfl la hla x x' ⟨rfl, rfl, rfl⟩ ⟨rfl, rfl, rfl⟩ hU hU' hm⟩

end SpectralDNS.Channel

/-! ## The coupled solvers -/

namespace SpectralDNS.Coupled

open Channel Polynomial Periodic Spec Spec.Field Dealias

variable {N M : Fin 2 → ℕ} {n : ℕ} {q : Quad} {L : Fin 2 → ℝ} {hN : ∀ i, 0 < N i} {h : Fin 2 → ℝ}
  {c : Ctx (RModes N) (Fin (n + 2) → ℂ) (Fin (n + 4) → ℂ) (Fin (n + 4) → ℂ)} {d : Channel.Ctx (RModes N) (Fin n → ℂ) (Fin (n + 2) → ℂ)} {kind : ConvKind}

/-- The flow of a coupled solver with coefficients `U'` is the flow with coefficients `U` seen after the motion. -/
def MovedVel (q : Quad) (L : Fin 2 → ℝ) (r : ℤˣ) (s : Fin 2 → ℤˣ) (h : Fin 2 → ℝ) (U U' : Vel (RModes N) (Fin (n + 2) → ℂ)) : Prop :=
  MovedFlow r s h (fieldU (chebWall q n) L (asVel U)) (fieldV (chebWall q n) L (asVel U)) (fieldW (chebWall q n) L (asVel U))
    (fieldU (chebWall q n) L (asVel U')) (fieldV (chebWall q n) L (asVel U')) (fieldW (chebWall q n) L (asVel U'))

/-- The contexts with another source. -/
theorem Setup.withSource (S : Setup q n M L hN c d kind) (b : Fin (n + 2) → ℂ) :
    Setup q n M L hN { c with Sk1 := Function.update c.Sk1 c.G.zero b } { d with Sk := b } kind :=
  { S with
    source := fun k hk => by
      show Function.update c.Sk1 c.G.zero b k = 0
      rw [Function.update_of_ne hk]
      exact S.source k hk
    mean := (Function.update_self c.G.zero b c.Sk1).symm }

/-- **C102 (Coupled).**  Started from a divergence free flow and from the same flow seen after the motion (written in the biharmonic basis: `V`, `V'`), and pressed by
the moved source, Coupled computes the same flow seen after the motion. -/
theorem C102_coupled (S : Setup q n M L hN c d kind) (hmask : c.mask = some fun k => if nyquistMask N k then 1 else 0) (H : Motion N M L 1 h) (r : ℤˣ) (s : Fin 2 → ℤˣ)
    (F F' : ℝ[X]) (hF : ∀ x, F'.eval x = ((s 0 : ℤ) : ℝ) * F.eval (((r : ℤ) : ℝ) * x)) (hSk : c.Sk1 c.G.zero = scalarProduct q (n + 4) phi (F.map Complex.ofRealHom))
    (c' : Ctx (RModes N) (Fin (n + 2) → ℂ) (Fin (n + 4) → ℂ) (Fin (n + 4) → ℂ))
    (hc' : c' = { c with Sk1 := Function.update c.Sk1 c.G.zero (scalarProduct q (n + 4) phi (F'.map Complex.ofRealHom)) })
    (solve solve' : Vec (RModes N) (Fin (n + 2) → ℂ) → Vel (RModes N) (Fin (n + 2) → ℂ) × (RModes N → Fin (n + 4) → ℂ))
    (hs : Solves c (2 / c.nu / c.dt) (2 / c.nu) (rest n) (pinFirst n) (pinLast n) solve)
    (hs' : Solves c' (2 / c.nu / c.dt) (2 / c.nu) (rest n) (pinFirst n) (pinLast n) solve')
    (V V' : Channel.Vel (RModes N) (Fin n → ℂ) (Fin (n + 2) → ℂ)) (hV : UnmaskedVel N V) (hV' : StoredVel N V') (hsol : Channel.Solenoidal d V (vorticity d.G V))
    (hm : Channel.MovedVel q L r s h V V') (x x' : St (RModes N) (Fin (n + 2) → ℂ) (Fin (n + 4) → ℂ)) (hx : Same x.U V) (hx' : Same x'.U V')
    (hH : x.H1 = c.conv x.U) (hH' : x'.H1 = c'.conv x'.U) (m : ℕ) :
    MovedVel q L r s h ((tick c solve id)^[m] x).U ((tick c' solve' id)^[m] x').U := by
  subst hc'
  have S' := S.withSource (scalarProduct q (n + 4) phi (F'.map Complex.ofRealHom))
  have eV := moveVel_of_moved H hV hV' hm
  have hsol' : Channel.Solenoidal d V' (vorticity d.G V') := by rw [eV]; exact solenoidal_moved H r s S.matsK S.gridK hsol
  have hz : ∀ V : Channel.Vel (RModes N) (Fin n → ℂ) (Fin (n + 2) → ℂ), vorticity d.G V d.G.zero = 0 := fun V => by
    have hk := (S.only_mean' _).2 rfl
    rw [Grid.Ksq] at hk
    have h1 : d.G.K1 d.G.zero = 0 := by nlinarith [mul_self_nonneg (d.G.K1 d.G.zero), mul_self_nonneg (d.G.K2 d.G.zero)]
    have h2 : d.G.K2 d.G.zero = 0 := by nlinarith [mul_self_nonneg (d.G.K1 d.G.zero), mul_self_nonneg (d.G.K2 d.G.zero)]
    simp [Channel.vorticity, h1, h2]
  rw [S.conv x.U V _ hx hsol (hz V)] at hH
  rw [S'.conv x'.U V' _ hx' hsol' (hz V')] at hH'
  obtain ⟨la, hla, -⟩ := Galerkin.C75_kmm q n d.G d.nu d.dt S.cheb.visc (by rw [S.dt]; exact S.dt_pos)
  rw [← S.matsK] at hla
  let t0 : Channel.St (RModes N) (Fin n → ℂ) (Fin (n + 2) → ℂ) := ⟨V, vorticity d.G V, x.H1, x.H1, x.H1, V⟩
  let t0' : Channel.St (RModes N) (Fin n → ℂ) (Fin (n + 2) → ℂ) := ⟨V', vorticity d.G V', x'.H1, x'.H1, x'.H1, V'⟩
  have hf := C102_kmm_start S.cheb (S.mask.trans hmask) H r s F F' hF (S.mean.trans hSk) _ rfl la hla t0 t0' ⟨rfl, rfl, hH⟩ ⟨rfl, rfl, hH'⟩ hV hV' hm m
  obtain ⟨-, e1, e2, e3⟩ := C98_kmm S solve hs la hla id id (fun _ _ h => h) (fun _ => ⟨rfl, fun _ _ => ⟨rfl, rfl⟩⟩) x t0 hx hsol (hz V) rfl rfl m
  obtain ⟨-, e1', e2', e3'⟩ := C98_kmm S' solve' hs' la hla id id (fun _ _ h => h) (fun _ => ⟨rfl, fun _ _ => ⟨rfl, rfl⟩⟩) x' t0' hx' hsol' (hz V') rfl rfl m
  rw [MovedVel, e1, e2, e3, e1', e2', e3']
  exact hf

/-- **C102 (CoupledRK3).** -/
theorem C102_coupledrk3 (S : Setup q n M L hN c d kind) (hmask : c.mask = some fun k => if nyquistMask N k then 1 else 0) (H : Motion N M L 1 h) (r : ℤˣ) (s : Fin 2 → ℤˣ)
    (F F' : ℝ[X]) (hF : ∀ x, F'.eval x = ((s 0 : ℤ) : ℝ) * F.eval (((r : ℤ) : ℝ) * x)) (hSk : c.Sk1 c.G.zero = scalarProduct q (n + 4) phi (F.map Complex.ofRealHom))
    (c' : Ctx (RModes N) (Fin (n + 2) → ℂ) (Fin (n + 4) → ℂ) (Fin (n + 4) → ℂ))
    (hc' : c' = { c with Sk1 := Function.update c.Sk1 c.G.zero (scalarProduct q (n + 4) phi (F'.map Complex.ofRealHom)) })
    (solve solve' : Fin 3 → Vec (RModes N) (Fin (n + 2) → ℂ) → Vel (RModes N) (Fin (n + 2) → ℂ) × (RModes N → Fin (n + 4) → ℂ))
    (hs : ∀ rk, Solves c (2 / c.nu / c.dt / rkG rk) (2 / c.nu / rkG rk) (rest n) (pinFirst n) (pinLast n) (solve rk))
    (hs' : ∀ rk, Solves c' (2 / c.nu / c.dt / rkG rk) (2 / c.nu / rkG rk) (rest n) (pinFirst n) (pinLast n) (solve' rk))
    (V V' : Channel.Vel (RModes N) (Fin n → ℂ) (Fin (n + 2) → ℂ)) (hV : UnmaskedVel N V) (hV' : StoredVel N V') (hsol : Channel.Solenoidal d V (vorticity d.G V))
    (hm : Channel.MovedVel q L r s h V V') (x x' : St3 (RModes N) (Fin (n + 2) → ℂ) (Fin (n + 4) → ℂ)) (hx : Same x.U V) (hx' : Same x'.U V') (m : ℕ) :
    MovedVel q L r s h ((tick3 c solve id)^[m] x).U ((tick3 c' solve' id)^[m] x').U := by
  subst hc'
  have S' := S.withSource (scalarProduct q (n + 4) phi (F'.map Complex.ofRealHom))
  have eV := moveVel_of_moved H hV hV' hm
  have hsol' : Channel.Solenoidal d V' (vorticity d.G V') := by rw [eV]; exact solenoidal_moved H r s S.matsK S.gridK hsol
  have hz : ∀ V : Channel.Vel (RModes N) (Fin n → ℂ) (Fin (n + 2) → ℂ), vorticity d.G V d.G.zero = 0 := fun V => by
    have hk := (S.only_mean' _).2 rfl
    rw [Grid.Ksq] at hk
    have h1 : d.G.K1 d.G.zero = 0 := by nlinarith [mul_self_nonneg (d.G.K1 d.G.zero), mul_self_nonneg (d.G.K2 d.G.zero)]
    have h2 : d.G.K2 d.G.zero = 0 := by nlinarith [mul_self_nonneg (d.G.K1 d.G.zero), mul_self_nonneg (d.G.K2 d.G.zero)]
    simp [Channel.vorticity, h1, h2]
  choose la hla _ using fun rk => Galerkin.C75_kmmrk3 q n d.G d.nu d.dt S.cheb.visc (by rw [S.dt]; exact S.dt_pos) rk
  rw [← S.matsK] at hla
  let t0 : Channel.St3 (RModes N) (Fin n → ℂ) (Fin (n + 2) → ℂ) := ⟨V, vorticity d.G V, ⟨0, 0, 0⟩, 0, 0, 0, 0⟩
  let t0' : Channel.St3 (RModes N) (Fin n → ℂ) (Fin (n + 2) → ℂ) := ⟨V', vorticity d.G V', ⟨0, 0, 0⟩, 0, 0, 0, 0⟩
  have hf := C102_kmmrk3_start S.cheb (S.mask.trans hmask) H r s F F' hF (S.mean.trans hSk) _ rfl la hla t0 t0' rfl rfl hV hV' hm m
  obtain ⟨-, e1, e2, e3⟩ := C98_kmmrk3 S solve hs la hla id id (fun _ _ h => h) (fun _ => ⟨rfl, fun _ _ => ⟨rfl, rfl⟩⟩) x t0 hx hsol (hz V) m
  obtain ⟨-, e1', e2', e3'⟩ := C98_kmmrk3 S' solve' hs' la hla id id (fun _ _ h => h) (fun _ => ⟨rfl, fun _ _ => ⟨rfl, rfl⟩⟩) x' t0' hx' hsol' (hz V') m
  rw [MovedVel, e1, e2, e3, e1', e2', e3']
  exact hf

end SpectralDNS.Coupled

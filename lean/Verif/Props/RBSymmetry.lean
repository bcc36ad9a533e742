import Verif.Lemmas.RBSymmetry
import Verif.Props.ChannelSymmetry
import Verif.Props.RBConverge
import Verif.Model.RBDemo

/-!
# C104: the Rayleigh-Benard solvers commute with the motions of the channel

Displacements along the walls, reflections, and the exchange of the walls together with hot and cold.
-/

namespace SpectralDNS.Channel

open Polynomial Periodic Spec Spec.Field Set Dealias Torus

variable {N M : Fin 2 → ℕ} {n : ℕ} {q qT : Quad} {L : Fin 2 → ℝ} {hN : ∀ i, 0 < N i} {h : Fin 2 → ℝ} {bc : ℝ × ℝ} {r : ℤˣ} {s : Fin 2 → ℤˣ}
  {c : Ctx (RModes N) (Fin n → ℂ) (Fin (n + 2) → ℂ)} {kind : ConvKind} {kappa : ℝ}

/-- The temperature with coefficients `t'` is that with coefficients `t` seen after the motion. -/
def MovedTemp (L : Fin 2 → ℝ) (bc : ℝ × ℝ) (r : ℤˣ) (s : Fin 2 → ℤˣ) (h : Fin 2 → ℝ) (t t' : Temp (RModes N) (Fin (n + 2) → ℂ)) : Prop :=
  MovedTemperature bc r s h (fieldT L t) (fieldT L t')

theorem fieldT_eq (hN : ∀ i, 0 < N i) (hL : ∀ i, L i ≠ 0) {t : Temp (RModes N) (Fin (n + 2) → ℂ)} (ht : HasBC bc (waveGrid N L hN).zero t) (x y z : ℝ) :
    fieldT L t x y z = fieldOf N L (fun k => expandC phi (t.d k)) x y z + (1 / 2 * (bc.1 + bc.2) + 1 / 2 * (bc.1 - bc.2) * x) := by
  obtain ⟨hz0, hz1⟩ := waves_zero hN hL
  have e : ∀ k, (rweight N k : ℂ) * (tempPoly (t.d k) (t.p k) (t.q k)).eval (x : ℂ) * Complex.exp (Complex.I * (scaledWaves N L 0 k * y + scaledWaves N L 1 k * z)) =
      (rweight N k : ℂ) * (expandC phi (t.d k)).eval (x : ℂ) * Complex.exp (Complex.I * (scaledWaves N L 0 k * y + scaledWaves N L 1 k * z)) +
        if k = (waveGrid N L hN).zero then ((1 / 2 * (bc.1 + bc.2) + 1 / 2 * (bc.1 - bc.2) * x : ℝ) : ℂ) else 0 := fun k => by
    by_cases hk : k = (waveGrid N L hN).zero
    · subst hk
      simp only [if_true, tempPoly, eval_add, eval_mul, eval_C, eval_X, ht.1, ht.2.2.1, rweight_zero hN, hz0, hz1]
      simp only [Complex.ofReal_zero, zero_mul, add_zero, mul_zero, Complex.exp_zero, mul_one, Complex.ofReal_one, one_mul]
      push_cast; ring
    · simp only [if_neg hk, tempPoly, eval_add, eval_mul, eval_C, eval_X, ht.2.1 k hk, ht.2.2.2 k hk]
      ring
  simp only [fieldT, fieldOf, Field.field]
  rw [Finset.sum_congr rfl fun k _ => e k, Finset.sum_add_distrib, Complex.add_re, Finset.sum_ite_eq' Finset.univ, if_pos (Finset.mem_univ _), Complex.ofReal_re]

theorem bceq_of {G : Grid (RModes N)} {t : Temp (RModes N) (Fin (n + 2) → ℂ)} (ht : HasBC bc G.zero t) : BCeq G bc t := by
  constructor <;> funext k <;> by_cases hk : k = G.zero
  · rw [hk, if_pos rfl]; exact ht.1
  · rw [if_neg hk]; exact ht.2.1 k hk
  · rw [hk, if_pos rfl]; exact ht.2.2.1
  · rw [if_neg hk]; exact ht.2.2.2 k hk

theorem hasBC_of {G : Grid (RModes N)} {t : Temp (RModes N) (Fin (n + 2) → ℂ)} (ht : BCeq G bc t) : HasBC bc G.zero t :=
  ⟨by simp [ht.1], fun k hk => by simp [ht.1, hk], by simp [ht.2], fun k hk => by simp [ht.2, hk]⟩

theorem movedTemp_iff (H : Motion N M L 1 h) (hN : ∀ i, 0 < N i) (r : ℤˣ) (s : Fin 2 → ℤˣ) {t t' : Temp (RModes N) (Fin (n + 2) → ℂ)}
    (ht : HasBC bc (waveGrid N L hN).zero t) (ht' : HasBC bc (waveGrid N L hN).zero t') :
    MovedTemp L bc r s h t t' ↔ MovedBetween r s h r (fieldOf N L fun k => expandC phi (t.d k)) (fieldOf N L fun k => expandC phi (t'.d k)) := by
  refine forall_congr' fun x => forall_congr' fun _ => forall_congr' fun y => forall_congr' fun z => ?_
  rw [fieldT_eq hN H.posL ht', fieldT_eq hN H.posL ht, fieldT_eq hN H.posL ht]
  rcases Int.units_eq_one_or r with rfl | rfl
  · simp
  · rw [if_neg (by decide)]
    simp only [Units.val_neg, Units.val_one, Int.cast_neg, Int.cast_one, neg_mul, one_mul]
    constructor <;> intro e <;> linarith

theorem relT_of_moved (H : Motion N M L 1 h) (hN : ∀ i, 0 < N i) {t t' : Temp (RModes N) (Fin (n + 2) → ℂ)}
    (ht : HasBC bc (waveGrid N L hN).zero t ∧ UnmaskedWall N t.d) (ht' : HasBC bc (waveGrid N L hN).zero t' ∧ StoredWall N t'.d) (hm : MovedTemp L bc r s h t t') :
    RelT (waveGrid N L hN) bc (nyquistMask N) (act N L 1 s h) r t t' :=
  ⟨lift_of_moved H s r r (hasPar_phi r) Coupled.phi_injective t.d t'.d ht.2 ht'.2 ((movedTemp_iff H hN r s ht.1 ht'.1).1 hm), bceq_of ht.1, bceq_of ht'.1, ht.2.van⟩

theorem RelT.moved (H : Motion N M L 1 h) {hN : ∀ i, 0 < N i} {t t' : Temp (RModes N) (Fin (n + 2) → ℂ)}
    (R : RelT (waveGrid N L hN) bc (nyquistMask N) (act N L 1 s h) r t t') : MovedTemp L bc r s h t t' := by
  refine (movedTemp_iff H hN r s (hasBC_of R.hbc) (hasBC_of R.hbc')).2 ?_
  rw [R.d]
  exact lift_moved H s r r (hasPar_phi r) t.d fun j k hk => congrFun (R.van k hk) j

theorem fixesMean (hN : ∀ i, 0 < N i) (H : Motion N M L 1 h) (s : Fin 2 → ℤˣ) : FixesMean (act N L 1 s h) (waveGrid N L hN) := fun x => by
  have := lift0_real (a := 1) hN H s 1 (fun _ => x) 0
  rw [lift0, lift_apply] at this
  simpa using this

theorem rspace_smul (N M : Fin 2 → ℕ) (x : ℝ) (f : Periodic.Grid M → ℝ) (a : RModes N → ℂ) :
    (rspace N M).forward (x • f) = x • (rspace N M).forward f ∧ (rspace N M).backward (x • a) = x • (rspace N M).backward a := by
  constructor
  · funext k
    simp only [rspace, dft, Pi.smul_apply, smul_eq_mul, Complex.real_smul, Complex.ofReal_mul, mul_assoc, ← Finset.mul_sum]
    ring
  · funext p
    simp only [rspace, dft, Pi.smul_apply, smul_eq_mul, Complex.real_smul]
    rw [← Complex.re_ofReal_mul, Finset.mul_sum]
    exact congrArg _ (Finset.sum_congr rfl fun k _ => by ring)

theorem constMul (hN : ∀ i, 0 < N i) (hNM : ∀ i, N i ≤ M i) (hL : ∀ i, L i ≠ 0) (s : Fin 2 → ℤˣ) (h : Fin 2 → ℝ) :
    ConstMul (rspace N M) (waveGrid N L hN) (nyquistMask N) (act N L 1 s h) := fun x b => by
  have hw : ∀ k, (∀ i, waves N i k = 0) ↔ k = (waveGrid N L hN).zero := fun k => by
    constructor
    · intro hk
      refine (waveGrid_zero N L hN hL k).1 ?_
      have h1 : (waveGrid N L hN).K1 k = 0 := by show scaledWaves N L 0 k = 0; simp [scaledWaves, hk]
      have h2 : (waveGrid N L hN).K2 k = 0 := by show scaledWaves N L 1 k = 0; simp [scaledWaves, hk]
      rw [Grid.Ksq, h1, h2]; ring
    · rintro rfl i
      have h0 : (((waveGrid N L hN).zero i : Fin _) : ℕ) = 0 := rfl
      have := hN i
      simp only [waves, h0]
      split_ifs <;> simp
  have e : constArr (waveGrid N L hN) x = x • unitArr N := by
    funext k
    simp only [constArr, Pi.smul_apply, unitArr, hw, Complex.real_smul]
    split_ifs <;> simp
  have hb : ∀ p, (rspace N M).backward (constArr (waveGrid N L hN) x) p = x := fun p => by
    rw [e, (rspace_smul N M x 0 _).2, Pi.smul_apply, unitArr_backward N M hN, smul_eq_mul, mul_one]
  have hinv := rspace_inverse N M hN hNM (act N L 1 s h b) (act_unmasked N L 1 s h b) (act_isReal N L 1 s h b)
  have e2 : (fun p => x * (rspace N M).backward (act N L 1 s h b) p) = x • (rspace N M).backward (act N L 1 s h b) := rfl
  simp only [pr, hb]
  rw [e2, (rspace_smul N M x _ 0).1, hinv, map_smul]
  congr 1
  funext k
  by_cases hk : nyquistMask N k = true
  · simp [keepL, keeps, hk]
  · rw [act_unmasked N L 1 s h b k (by simpa using hk)]
    simp [keepL, keeps, hk]

/-- **C104 (KMMRK3_RB).**  Two runs with the same systems and wall temperatures, started so that velocity, wall-normal vorticity and temperature of the second run are those
of the first seen after the motion, and pressed by the moved source: after any number of steps velocity and temperature of the second run are those of the first seen
after the motion.  If the walls are exchanged, so are hot and cold. -/
theorem C104_kmmrk3_rb (S : ChebCtx q n M L hN c kind) (hmask : c.mask = some fun k => if nyquistMask N k then 1 else 0) (H : Motion N M L 1 h) (r : ℤˣ) (s : Fin 2 → ℤˣ)
    (F F' : ℝ[X]) (hF : ∀ x, F'.eval x = ((s 0 : ℤ) : ℝ) * F.eval (((r : ℤ) : ℝ) * x)) (hSk : c.Sk = scalarProduct q (n + 4) phi (F.map Complex.ofRealHom))
    (c' : Ctx (RModes N) (Fin n → ℂ) (Fin (n + 2) → ℂ)) (hc' : c' = { c with Sk := scalarProduct q (n + 4) phi (F'.map Complex.ofRealHom) })
    {prodB : Temp (RModes N) (Fin (n + 2) → ℂ) → (RModes N → Fin n → ℂ) → RModes N → Fin n → ℂ}
    {prodD : Temp (RModes N) (Fin (n + 2) → ℂ) → (RModes N → Fin (n + 2) → ℂ) → RModes N → Fin (n + 2) → ℂ}
    (la : Fin 3 → LA (RModes N) (Fin n → ℂ) (Fin (n + 2) → ℂ)) (hla : ∀ rk, (la rk).Solves3 c.nu c.dt (rkA rk + rkB rk) c.G c.M)
    (solveT : Fin 3 → RModes N → (Fin (n + 2) → ℂ) → Fin (n + 2) → ℂ) (hsT : ∀ rk, SolvesT (chebRB bc q qT n c kappa prodB prodD) (rkA rk + rkB rk) (solveT rk))
    (x x' : RB3St (RModes N) (Fin n → ℂ) (Fin (n + 2) → ℂ))
    (hx : UnmaskedVel N x.s.U ∧ UnmaskedWall N x.s.g ∧ HasBC bc c.G.zero x.phi ∧ UnmaskedWall N x.phi.d)
    (hx' : StoredVel N x'.s.U ∧ StoredWall N x'.s.g ∧ HasBC bc c.G.zero x'.phi ∧ StoredWall N x'.phi.d)
    (hm : MovedVel q L r s h x.s.U x'.s.U ∧ MovedVort L r s h x.s.g x'.s.g ∧ MovedTemp L bc r s h x.phi x'.phi) (m : ℕ) :
    let y := (integrateRB3 (chebRB bc q qT n c kappa prodB prodD) (standardRB q n (chebWall q n) (rspace N M) c.G) la solveT)^[m] x
    let y' := (integrateRB3 (chebRB bc q qT n c' kappa prodB prodD) (standardRB q n (chebWall q n) (rspace N M) c'.G) la solveT)^[m] x'
    MovedVel q L r s h y.s.U y'.s.U ∧ MovedTemp L bc r s h y.phi y'.phi := by
  have C := S.moves hmask H s
  have eS : c' = moveCtx (act N L 1 s h) r s c := by
    rw [hc', moveCtx, hSk, S.grid, ← source_moved hN H s r F F' hF]
  clear hc'
  subst eS
  have hfix : FixesMean (act N L 1 s h) c.G := by rw [S.grid]; exact fixesMean hN H s
  have hT : RelT c.G bc (nyquistMask N) (act N L 1 s h) r x.phi x'.phi := by
    rw [S.grid] at hx hx' ⊢
    exact relT_of_moved H hN hx.2.2 hx'.2.2 hm.2.2
  have R := integrateRB3_moved C hfix hla hsT
    ⟨⟨moveVel_of_moved H hx.1 hx'.1 hm.1, moveG_of_moved H hx.2.1 hx'.2.1 hm.2.1, hx.1.van, hx.2.1.van⟩, hT⟩ m
  have key : ∀ y y' : RB3St (RModes N) (Fin n → ℂ) (Fin (n + 2) → ℂ), RelRB3 c.G bc (nyquistMask N) (act N L 1 s h) r s y y' →
      MovedVel q L r s h y.s.U y'.s.U ∧ MovedTemp L bc r s h y.phi y'.phi := fun y y' R => by
    have hT := R.temp
    rw [S.grid] at hT
    refine ⟨?_, hT.moved H⟩
    rw [R.vel.U]
    exact moveVel_moved H r s _ R.vel.vanU
  exact key _ _ R

theorem kmm_rb_of_rel (S : ChebCtx q n M L hN c kind) (hmask : c.mask = some fun k => if nyquistMask N k then 1 else 0) (H : Motion N M L 1 h) (hNM : ∀ i, N i ≤ M i) (r : ℤˣ) (s : Fin 2 → ℤˣ)
    (F F' : ℝ[X]) (hF : ∀ x, F'.eval x = ((s 0 : ℤ) : ℝ) * F.eval (((r : ℤ) : ℝ) * x)) (hSk : c.Sk = scalarProduct q (n + 4) phi (F.map Complex.ofRealHom))
    (c' : Ctx (RModes N) (Fin n → ℂ) (Fin (n + 2) → ℂ)) (hc' : c' = { c with Sk := scalarProduct q (n + 4) phi (F'.map Complex.ofRealHom) })
    (la : LA (RModes N) (Fin n → ℂ) (Fin (n + 2) → ℂ)) (hla : la.Solves c.nu c.dt c.G c.M) (solveT : RModes N → (Fin (n + 2) → ℂ) → Fin (n + 2) → ℂ)
    (hsT : SolvesT (chebRB bc q qT n c kappa (prodBwall q n (rspace N M)) (prodDwall q n (rspace N M))) 1 solveT)
    (x x' : RBSt (RModes N) (Fin n → ℂ) (Fin (n + 2) → ℂ)) (R : RelRB c bc (nyquistMask N) (act N L 1 s h) r s x x') (m : ℕ) :
    let y := (tickRB (chebRB bc q qT n c kappa (prodBwall q n (rspace N M)) (prodDwall q n (rspace N M))) la solveT)^[m] x
    let y' := (tickRB (chebRB bc q qT n c' kappa (prodBwall q n (rspace N M)) (prodDwall q n (rspace N M))) la solveT)^[m] x'
    MovedVel q L r s h y.s.U y'.s.U ∧ MovedTemp L bc r s h y.phi0 y'.phi0 ∧ (0 < m → MovedTemp L bc r s h y.phi y'.phi) := by
  have C := S.moves hmask H s
  have eS : c' = moveCtx (act N L 1 s h) r s c := by
    rw [hc', moveCtx, hSk, S.grid, ← source_moved hN H s r F F' hF]
  clear hc'
  subst eS
  have hfix : FixesMean (act N L 1 s h) c.G := by rw [S.grid]; exact fixesMean hN H s
  have hK : ConstMul (rspace N M) c.G (nyquistMask N) (act N L 1 s h) := by rw [S.grid]; exact constMul hN hNM H.posL s h
  have R' := fun m => runRB_moved C hfix hK hla hsT R m
  have key : ∀ y y' : RBSt (RModes N) (Fin n → ℂ) (Fin (n + 2) → ℂ), RelRB c bc (nyquistMask N) (act N L 1 s h) r s y y' →
      MovedVel q L r s h y.s.U y'.s.U ∧ MovedTemp L bc r s h y.phi0 y'.phi0 := fun y y' R => by
    have hT := R.phi0
    rw [S.grid] at hT
    refine ⟨?_, hT.moved H⟩
    rw [R.vel.U]
    exact moveVel_moved H r s _ R.vel.vanU
  have hphi : ∀ (d : RBCtx (RModes N) (Fin n → ℂ) (Fin (n + 2) → ℂ)) x, 0 < m → ((tickRB d la solveT)^[m] x).phi = ((tickRB d la solveT)^[m] x).phi0 := fun d x hm => by
    obtain ⟨k, rfl⟩ := Nat.exists_eq_succ_of_ne_zero hm.ne'
    rw [Function.iterate_succ_apply']
    rfl
  have K := key _ _ (R' m)
  exact ⟨K.1, K.2, fun hm => by rw [hphi _ _ hm, hphi _ _ hm]; exact K.2⟩

/-- **C104 (KMM_RB).**  The same for KMM_RB; both velocity levels, both temperature levels and the flow from which `H_hat1` was computed are moved.  For the exchange of the
walls the velocity levels of the start must satisfy the equation of continuity: the solver differentiates the products `u T`, so that adding a constant to the temperature
changes nothing only for divergence free velocities. -/
theorem C104_kmm_rb (S : ChebCtx q n M L hN c kind) (hmask : c.mask = some fun k => if nyquistMask N k then 1 else 0) (H : Motion N M L 1 h) (hNM : ∀ i, N i ≤ M i) (r : ℤˣ) (s : Fin 2 → ℤˣ)
    (F F' : ℝ[X]) (hF : ∀ x, F'.eval x = ((s 0 : ℤ) : ℝ) * F.eval (((r : ℤ) : ℝ) * x)) (hSk : c.Sk = scalarProduct q (n + 4) phi (F.map Complex.ofRealHom))
    (c' : Ctx (RModes N) (Fin n → ℂ) (Fin (n + 2) → ℂ)) (hc' : c' = { c with Sk := scalarProduct q (n + 4) phi (F'.map Complex.ofRealHom) })
    (la : LA (RModes N) (Fin n → ℂ) (Fin (n + 2) → ℂ)) (hla : la.Solves c.nu c.dt c.G c.M) (solveT : RModes N → (Fin (n + 2) → ℂ) → Fin (n + 2) → ℂ)
    (hsT : SolvesT (chebRB bc q qT n c kappa (prodBwall q n (rspace N M)) (prodDwall q n (rspace N M))) 1 solveT)
    (x x' : RBSt (RModes N) (Fin n → ℂ) (Fin (n + 2) → ℂ)) (V V' : Vel (RModes N) (Fin n → ℂ) (Fin (n + 2) → ℂ)) (p p' : RModes N → Fin (n + 2) → ℂ)
    (hH : x.s.H1 = c.conv V p) (hH' : x'.s.H1 = c'.conv V' p')
    (hx : UnmaskedVel N x.s.U ∧ UnmaskedVel N x.s.U0 ∧ UnmaskedVel N V ∧ UnmaskedWall N x.s.g ∧ UnmaskedWall N p)
    (hx' : StoredVel N x'.s.U ∧ StoredVel N x'.s.U0 ∧ StoredVel N V' ∧ StoredWall N x'.s.g ∧ StoredWall N p')
    (hm : MovedVel q L r s h x.s.U x'.s.U ∧ MovedVel q L r s h x.s.U0 x'.s.U0 ∧ MovedVel q L r s h V V' ∧ MovedVort L r s h x.s.g x'.s.g ∧ MovedVort L r s h p p')
    (ht : (HasBC bc c.G.zero x.phi0 ∧ UnmaskedWall N x.phi0.d) ∧ HasBC bc c.G.zero x.phi1 ∧ UnmaskedWall N x.phi1.d)
    (ht' : (HasBC bc c.G.zero x'.phi0 ∧ StoredWall N x'.phi0.d) ∧ HasBC bc c.G.zero x'.phi1 ∧ StoredWall N x'.phi1.d)
    (hmt : MovedTemp L bc r s h x.phi0 x'.phi0 ∧ MovedTemp L bc r s h x.phi1 x'.phi1)
    (hdiv : r = 1 ∨ Solenoidal c x.s.U (vorticity c.G x.s.U) ∧ Solenoidal c x.s.U0 (vorticity c.G x.s.U0)) (m : ℕ) :
    let y := (tickRB (chebRB bc q qT n c kappa (prodBwall q n (rspace N M)) (prodDwall q n (rspace N M))) la solveT)^[m] x
    let y' := (tickRB (chebRB bc q qT n c' kappa (prodBwall q n (rspace N M)) (prodDwall q n (rspace N M))) la solveT)^[m] x'
    MovedVel q L r s h y.s.U y'.s.U ∧ MovedTemp L bc r s h y.phi0 y'.phi0 ∧ (0 < m → MovedTemp L bc r s h y.phi y'.phi) := by
  have C := S.moves hmask H s
  have hcv : c'.conv = c.conv := by rw [hc']
  have hH1 : keepVec (nyquistMask N) x'.s.H1 = moveVec (act N L 1 s h) r s (keepVec (nyquistMask N) x.s.H1) := by
    rw [hH, hH', hcv, moveVel_of_moved H hx.2.2.1 hx'.2.2.1 hm.2.2.1, moveG_of_moved H hx.2.2.2.2 hx'.2.2.2.2 hm.2.2.2.2, C.conv]
    exact C.plane.conv q n kind V hx.2.2.1.van p hx.2.2.2.2.van
  rw [S.grid] at ht ht'
  have hT0 := relT_of_moved H hN ht.1 ht'.1 hmt.1
  have hT1 := relT_of_moved H hN ht.2 ht'.2 hmt.2
  rw [← S.grid] at hT0 hT1
  exact kmm_rb_of_rel S hmask H hNM r s F F' hF hSk c' hc' la hla solveT hsT x x'
    ⟨⟨moveVel_of_moved H hx.1 hx'.1 hm.1, moveVel_of_moved H hx.2.1 hx'.2.1 hm.2.1, moveG_of_moved H hx.2.2.2.1 hx'.2.2.2.1 hm.2.2.2.1, hH1, hx.1.van, hx.2.2.2.1.van⟩,
     hx.2.1.van, hT0, hT1, hdiv.imp id fun h => ⟨h.1.1, h.2.1⟩⟩ m

/-- **C104 (KMM_RB, started as by RayleighBenard.py:14-30).**  From rest, with any temperature. -/
theorem C104_kmm_rb_start (S : ChebCtx q n M L hN c kind) (hmask : c.mask = some fun k => if nyquistMask N k then 1 else 0) (H : Motion N M L 1 h) (hNM : ∀ i, N i ≤ M i) (r : ℤˣ) (s : Fin 2 → ℤˣ)
    (F F' : ℝ[X]) (hF : ∀ x, F'.eval x = ((s 0 : ℤ) : ℝ) * F.eval (((r : ℤ) : ℝ) * x)) (hSk : c.Sk = scalarProduct q (n + 4) phi (F.map Complex.ofRealHom))
    (c' : Ctx (RModes N) (Fin n → ℂ) (Fin (n + 2) → ℂ)) (hc' : c' = { c with Sk := scalarProduct q (n + 4) phi (F'.map Complex.ofRealHom) })
    (la : LA (RModes N) (Fin n → ℂ) (Fin (n + 2) → ℂ)) (hla : la.Solves c.nu c.dt c.G c.M) (solveT : RModes N → (Fin (n + 2) → ℂ) → Fin (n + 2) → ℂ)
    (hsT : SolvesT (chebRB bc q qT n c kappa (prodBwall q n (rspace N M)) (prodDwall q n (rspace N M))) 1 solveT)
    (t t' : Temp (RModes N) (Fin (n + 2) → ℂ)) (ht : HasBC bc c.G.zero t ∧ UnmaskedWall N t.d) (ht' : HasBC bc c.G.zero t' ∧ StoredWall N t'.d)
    (hmt : MovedTemp L bc r s h t t') (m : ℕ) :
    let y := (tickRB (chebRB bc q qT n c kappa (prodBwall q n (rspace N M)) (prodDwall q n (rspace N M))) la solveT)^[m] (startRB t)
    let y' := (tickRB (chebRB bc q qT n c' kappa (prodBwall q n (rspace N M)) (prodDwall q n (rspace N M))) la solveT)^[m] (startRB t')
    MovedVel q L r s h y.s.U y'.s.U ∧ MovedTemp L bc r s h y.phi0 y'.phi0 ∧ (0 < m → MovedTemp L bc r s h y.phi y'.phi) := by
  rw [S.grid] at ht ht'
  have hT := relT_of_moved H hN ht ht' hmt
  rw [← S.grid] at hT
  have hz : ∀ {a : ℕ}, VanA (nyquistMask N) (0 : RModes N → Fin a → ℂ) := fun _ _ => rfl
  have hc0 : ∀ k, SpectralDNS.Spec.Channel.Continuity c.M.BDD c.M.CDB (c.G.K1 k) (c.G.K2 k) (0 : Fin n → ℂ) (0 : Fin (n + 2) → ℂ) (0 : Fin (n + 2) → ℂ) := fun k => by
    simp [SpectralDNS.Spec.Channel.Continuity]
  have hU : (⟨0, 0, 0⟩ : Vel (RModes N) (Fin n → ℂ) (Fin (n + 2) → ℂ)) = moveVel (act N L 1 s h) r s ⟨0, 0, 0⟩ := by
    simp only [moveVel, map_zero, smul_zero]
  refine kmm_rb_of_rel S hmask H hNM r s F F' hF hSk c' hc' la hla solveT hsT _ _ ⟨⟨hU, hU, ?_, ?_, ⟨hz, hz, hz⟩, hz⟩, ⟨hz, hz, hz⟩, hT, hT, Or.inr ⟨hc0, hc0⟩⟩ m
  · simp only [startRB, moveG, map_zero, smul_zero]
  · have e : keepVec (nyquistMask N) (⟨0, 0, 0⟩ : Vec (RModes N) (Fin (n + 2) → ℂ)) = ⟨0, 0, 0⟩ := by
      have : keepA (nyquistMask N) (0 : RModes N → Fin (n + 2) → ℂ) = 0 := by funext k; simp [keepA]
      simp only [keepVec, this]
    show keepVec (nyquistMask N) (⟨0, 0, 0⟩ : Vec (RModes N) (Fin (n + 2) → ℂ)) = moveVec _ r s (keepVec (nyquistMask N) ⟨0, 0, 0⟩)
    rw [e]
    simp only [moveVec, map_zero, smul_zero]

/-- **C104 (a symmetric convection stays symmetric).**  A layer started from rest with a temperature which is unchanged by the motion (exchange of hot and cold included, if the
walls are exchanged) and without pressure gradient: velocity and temperature stay unchanged by the motion. -/
theorem C104_kmm_rb_symmetric (S : ChebCtx q n M L hN c kind) (hmask : c.mask = some fun k => if nyquistMask N k then 1 else 0) (H : Motion N M L 1 h)
    (hNM : ∀ i, N i ≤ M i) (r : ℤˣ) (s : Fin 2 → ℤˣ) (hSk : c.Sk = 0)
    (la : LA (RModes N) (Fin n → ℂ) (Fin (n + 2) → ℂ)) (hla : la.Solves c.nu c.dt c.G c.M) (solveT : RModes N → (Fin (n + 2) → ℂ) → Fin (n + 2) → ℂ)
    (hsT : SolvesT (chebRB bc q qT n c kappa (prodBwall q n (rspace N M)) (prodDwall q n (rspace N M))) 1 solveT)
    (t : Temp (RModes N) (Fin (n + 2) → ℂ)) (ht : HasBC bc c.G.zero t ∧ StoredWall N t.d) (hmt : MovedTemp L bc r s h t t) (m : ℕ) :
    let y := (tickRB (chebRB bc q qT n c kappa (prodBwall q n (rspace N M)) (prodDwall q n (rspace N M))) la solveT)^[m] (startRB t)
    MovedVel q L r s h y.s.U y.s.U ∧ MovedTemp L bc r s h y.phi0 y.phi0 ∧ (0 < m → MovedTemp L bc r s h y.phi y.phi) := by
  have e : c.Sk = scalarProduct q (n + 4) phi (a := n + 2) ((0 : ℝ[X]).map Complex.ofRealHom) := by rw [hSk, Polynomial.map_zero, map_zero]
  exact C104_kmm_rb_start S hmask H hNM r s 0 0 (fun x => by simp) e c (by rw [← e]) la hla solveT hsT t t ⟨ht.1, fun j => (ht.2 j).1⟩ ht hmt m

/-- Every temperature can be moved. -/
theorem exists_movedTemp (H : Motion N M L 1 h) (hN : ∀ i, 0 < N i) (r : ℤˣ) (s : Fin 2 → ℤˣ) (t : Temp (RModes N) (Fin (n + 2) → ℂ)) (ht : HasBC bc (waveGrid N L hN).zero t)
    (hu : UnmaskedWall N t.d) : ∃ t', (HasBC bc (waveGrid N L hN).zero t' ∧ StoredWall N t'.d) ∧ MovedTemp L bc r s h t t' := by
  refine ⟨⟨sgR r • lift (act N L 1 s h) r t.d, t.p, t.q⟩, ⟨ht, lift_stored s r r t.d⟩, ?_⟩
  exact RelT.moved (hN := hN) H ⟨rfl, bceq_of ht, bceq_of ht, hu.van⟩

/-- A layer heated from below on a mesh with `7 × 8 × 8` points and the 3/2-rule: KMM_RB started from rest with any temperature, and with the temperature seen after exchange of the
walls and of hot and cold, reflection of the spanwise direction and any displacement; KMMRK3_RB started from any flow and temperature and the flow and temperature seen after that. -/
example (t : Temp (RModes ![8, 8]) (Fin 5 → ℂ)) (hN : ∀ i : Fin 2, 0 < (![8, 8] : Fin 2 → ℕ) i) (ht : HasBC (0, 1) (waveGrid ![8, 8] ![1, 2] hN).zero t)
    (hu : UnmaskedWall ![8, 8] t.d) (U : Vel (RModes ![8, 8]) (Fin 3 → ℂ) (Fin 5 → ℂ)) (hU : UnmaskedVel ![8, 8] U) (h : Fin 2 → ℝ) :
    ∃ (c : Ctx (RModes ![8, 8]) (Fin 3 → ℂ) (Fin 5 → ℂ)) (U' : Vel (RModes ![8, 8]) (Fin 3 → ℂ) (Fin 5 → ℂ)) (t' : Temp (RModes ![8, 8]) (Fin 5 → ℂ)),
      let rb := fun qT => chebRB (0, 1) .GC qT 3 c (1 / 50) (prodBwall .GC 3 (rspace ![8, 8] ![12, 12])) (prodDwall .GC 3 (rspace ![8, 8] ![12, 12]))
      let convT := standardRB .GC 3 (chebWall .GC 3) (rspace ![8, 8] ![12, 12]) c.G
      MovedVel .GC ![1, 2] (-1) ![1, -1] h U U' ∧ MovedTemp ![1, 2] (0, 1) (-1) ![1, -1] h t t' ∧
      (∃ la solveT, la.Solves c.nu c.dt c.G c.M ∧ SolvesT (rb .GL) 1 solveT ∧ ∀ m : ℕ,
        MovedVel .GC ![1, 2] (-1) ![1, -1] h ((tickRB (rb .GL) la solveT)^[m] (startRB t)).s.U ((tickRB (rb .GL) la solveT)^[m] (startRB t')).s.U ∧
        MovedTemp ![1, 2] (0, 1) (-1) ![1, -1] h ((tickRB (rb .GL) la solveT)^[m] (startRB t)).phi0 ((tickRB (rb .GL) la solveT)^[m] (startRB t')).phi0) ∧
      ∃ la solveT, (∀ rk, (la rk).Solves3 c.nu c.dt (rkA rk + rkB rk) c.G c.M) ∧ (∀ rk, SolvesT (rb .GC) (rkA rk + rkB rk) (solveT rk)) ∧
        ∀ (x x' : RB3St (RModes ![8, 8]) (Fin 3 → ℂ) (Fin 5 → ℂ)), x.s.U = U → x.s.g = vorticity c.G U → x.phi = t → x'.s.U = U' → x'.s.g = vorticity c.G U' → x'.phi = t' →
        ∀ m : ℕ, MovedVel .GC ![1, 2] (-1) ![1, -1] h ((integrateRB3 (rb .GC) convT la solveT)^[m] x).s.U ((integrateRB3 (rb .GC) convT la solveT)^[m] x').s.U ∧
          MovedTemp ![1, 2] (0, 1) (-1) ![1, -1] h ((integrateRB3 (rb .GC) convT la solveT)^[m] x).phi ((integrateRB3 (rb .GC) convT la solveT)^[m] x').phi := by
  have H : Motion (n := 1) ![8, 8] ![12, 12] ![1, 2] 1 h := ⟨fun _ => rfl, fun _ => rfl, fun _ => rfl, hN, fun i => by fin_cases i <;> norm_num,
    fun i => by fin_cases i <;> norm_num, Or.inl fun i => by fin_cases i <;> rfl⟩
  let c : Ctx (RModes ![8, 8]) (Fin 3 → ℂ) (Fin 5 → ℂ) :=
    { nu := 1 / 100, dt := 1 / 10, G := waveGrid ![8, 8] ![1, 2] hN, M := chebMats .GC 3, mask := some fun k => if nyquistMask (n := 1) ![8, 8] k then 1 else 0,
      conv := convection .vortex (chebWall .GC 3) (rspace ![8, 8] ![12, 12]) (waveGrid ![8, 8] ![1, 2] hN),
      Sk := scalarProduct .GC 7 phi ((0 : ℝ[X]).map Complex.ofRealHom) }
  have S : ChebCtx .GC 3 ![12, 12] ![1, 2] hN c .vortex := ⟨fun i => by fin_cases i <;> norm_num, rfl, rfl, by norm_num [c], rfl⟩
  obtain ⟨U', hU', hm⟩ := exists_movedVel H .GC (-1) ![1, -1] U hU
  obtain ⟨t', ht', hmt⟩ := exists_movedTemp H hN (-1) ![1, -1] t ht hu
  have hg : UnmaskedWall ![8, 8] (vorticity c.G U) := fun j k hk => by simp [vorticity, hU.van.2.1 k hk, hU.van.2.2 k hk]
  have eg : vorticity c.G U' = moveG (act ![8, 8] ![1, 2] 1 ![1, -1] h) (-1) ![1, -1] (vorticity c.G U) := by
    rw [moveVel_of_moved H hU hU' hm]; exact vorticity_moved H hN U
  have hg' : StoredWall ![8, 8] (vorticity c.G U') := by rw [eg]; exact lift_stored _ _ _ _
  have hmg : MovedVort ![1, 2] (-1) ![1, -1] h (vorticity c.G U) (vorticity c.G U') := by rw [eg]; exact lift_moved H _ _ _ (hasPar_phi _) _ hg
  refine ⟨c, U', t', hm, hmt, ?_, ?_⟩
  · obtain ⟨la, hla, -⟩ := Galerkin.C75_kmm .GC 3 c.G c.nu c.dt S.visc (by norm_num [c])
    obtain ⟨solveT, hsT⟩ := (Galerkin.C75_rb .GC 3 (chebRB (0, 1) .GC .GL 3 c (1 / 50) (prodBwall .GC 3 (rspace ![8, 8] ![12, 12])) (prodDwall .GC 3 (rspace ![8, 8] ![12, 12]))) rfl rfl
      (by norm_num [chebRB]) (by norm_num [chebRB, c]) 1 (Or.inl rfl)).exists
    exact ⟨la, solveT, hla, hsT, fun m => by
      have := C104_kmm_rb_start S rfl H (fun i => by fin_cases i <;> norm_num) (-1) ![1, -1] 0 0 (fun x => by simp) rfl c rfl la hla solveT hsT t t' ⟨ht, hu⟩ ht' hmt m
      exact ⟨this.1, this.2.1⟩⟩
  · choose la hla _ using fun rk => Galerkin.C75_kmmrk3 .GC 3 c.G c.nu c.dt S.visc (by norm_num [c]) rk
    choose solveT hsT using fun rk : Fin 3 => (Galerkin.C75_rb .GC 3 (chebRB (0, 1) .GC .GC 3 c (1 / 50) (prodBwall .GC 3 (rspace ![8, 8] ![12, 12]))
      (prodDwall .GC 3 (rspace ![8, 8] ![12, 12]))) rfl rfl (by norm_num [chebRB]) (by norm_num [chebRB, c]) (rkA rk + rkB rk) (Or.inr ⟨rk, rfl⟩)).exists
    refine ⟨la, solveT, hla, hsT, fun x x' e1 e2 e3 e1' e2' e3' m => ?_⟩
    exact C104_kmmrk3_rb S rfl H (-1) ![1, -1] 0 0 (fun x => by simp) rfl c rfl la hla solveT hsT x x' (by rw [e1, e2, e3]; exact ⟨hU, hg, ht, hu⟩)
      (by rw [e1', e2', e3']; exact ⟨hU', hg', ht'⟩) (by rw [e1, e2, e3, e1', e2', e3']; exact ⟨hm, hmg, hmt⟩) m

end SpectralDNS.Channel

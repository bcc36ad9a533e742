import Verif.Lemmas.ChannelPlanar
import Verif.Props.RBSymmetry
import Verif.Props.KMMrSymmetry

/-!
# C106: a flow that does not vary in one of the directions along the walls stays so; two-dimensional flow stays two-dimensional
-/

namespace SpectralDNS.Channel

open Polynomial Periodic Spec Spec.Field Set Dealias Torus

variable {N M : Fin 2 → ℕ} {n : ℕ} {q qT : Quad} {L : Fin 2 → ℝ} {hN : ∀ i, 0 < N i} {dir : Fin 2} {bc : ℝ × ℝ} {h : Fin 2 → ℝ} {r : ℤˣ} {s : Fin 2 → ℤˣ}
  {c : Ctx (RModes N) (Fin n → ℂ) (Fin (n + 2) → ℂ)} {kind : ConvKind} {kappa : ℝ}

/-- The flow with coefficients `U` does not vary in the direction `dir`. -/
def AlongVel (q : Quad) (L : Fin 2 → ℝ) (dir : Fin 2) (U : Vel (RModes N) (Fin n → ℂ) (Fin (n + 2) → ℂ)) : Prop :=
  AlongFlow dir (fieldU (chebWall q n) L U) (fieldV (chebWall q n) L U) (fieldW (chebWall q n) L U)

/-- The flow with coefficients `U` is two-dimensional: it does not vary in the direction `dir` and has no component in that direction. -/
def PlanarVel (q : Quad) (L : Fin 2 → ℝ) (dir : Fin 2) (U : Vel (RModes N) (Fin n → ℂ) (Fin (n + 2) → ℂ)) : Prop :=
  PlanarFlow dir (fieldU (chebWall q n) L U) (fieldV (chebWall q n) L U) (fieldW (chebWall q n) L U)

theorem posM (hN : ∀ i, 0 < N i) (hNM : ∀ i, N i ≤ M i) (i : Fin 2) : 0 < M i := (hN i).trans_le (hNM i)

theorem alongVel_iff (hN : ∀ i, 0 < N i) (hNM : ∀ i, N i ≤ M i) (hL : ∀ i, L i ≠ 0) {U : Vel (RModes N) (Fin n → ℂ) (Fin (n + 2) → ℂ)} :
    AlongVel q L dir U ↔ MovedVel q L 1 1 (cell L M dir) U U := alongFlow_iff (posM hN hNM dir) (hNM dir) (hL dir)

theorem mirror_source {F : ℝ[X]} (hF : dir = 0 → F = 0) (x : ℝ) : F.eval x = ((mirror dir 0 : ℤ) : ℝ) * F.eval ((((1 : ℤˣ) : ℤ) : ℝ) * x) := by
  by_cases h : dir = 0
  · simp [hF h]
  · simp [mirror, Ne.symm h]

/-- From the same flow, one displaced vorticity. -/
theorem vort_of_moved (H : Motion N M L 1 h) {U : Vel (RModes N) (Fin n → ℂ) (Fin (n + 2) → ℂ)} (hU : StoredVel N U) (hm : MovedVel q L r s h U U) :
    StoredWall N (vorticity (waveGrid N L hN) U) ∧ MovedVort L r s h (vorticity (waveGrid N L hN) U) (vorticity (waveGrid N L hN) U) := by
  have hu : UnmaskedVel N U := ⟨fun j => (hU.1 j).1, fun j => (hU.2.1 j).1, fun j => (hU.2.2 j).1⟩
  have hg : UnmaskedWall N (vorticity (waveGrid N L hN) U) := fun j k hk => by simp [vorticity, hu.van.2.1 k hk, hu.van.2.2 k hk]
  have eg : vorticity (waveGrid N L hN) U = moveG (act N L 1 s h) r s (vorticity (waveGrid N L hN) U) := by
    conv_lhs => rw [moveVel_of_moved H hu hU hm]
    exact vorticity_moved H hN U
  refine ⟨by rw [eg]; exact lift_stored _ _ _ _, ?_⟩
  have : MovedVort L r s h (vorticity (waveGrid N L hN) U) (moveG (act N L 1 s h) r s (vorticity (waveGrid N L hN) U)) := lift_moved H s r _ (hasPar_phi r) _ hg
  rwa [← eg] at this

/-- **C106 (KMM).**  Started from a flow which does not vary in a direction along the walls, and driven by any source, KMM computes a flow which does not vary in that direction. -/
theorem C106_kmm_along (S : ChebCtx q n M L hN c kind) (hmask : c.mask = some fun k => if nyquistMask N k then 1 else 0) (hNM : ∀ i, N i ≤ M i) (F : ℝ[X])
    (hSk : c.Sk = scalarProduct q (n + 4) phi (F.map Complex.ofRealHom)) (la : LA (RModes N) (Fin n → ℂ) (Fin (n + 2) → ℂ)) (hla : la.Solves c.nu c.dt c.G c.M)
    (x : St (RModes N) (Fin n → ℂ) (Fin (n + 2) → ℂ)) (hx : x.U0 = x.U ∧ x.g = vorticity c.G x.U ∧ x.H1 = c.conv x.U x.g) (hU : StoredVel N x.U)
    (dir : Fin 2) (hm : AlongVel q L dir x.U) (m : ℕ) : AlongVel q L dir ((tick c la id)^[m] x).U := by
  rw [alongVel_iff hN hNM S.sides] at hm ⊢
  exact C102_kmm_symmetric S hmask (motion_cell hN (posM hN hNM) S.sides dir) 1 1 F (fun x => by simp) hSk la hla x hx hU hm m

/-- **C106 (KMM).**  Two-dimensional flow stays two-dimensional; in the plane across the direction of the source, if there is no source. -/
theorem C106_kmm_planar (S : ChebCtx q n M L hN c kind) (hmask : c.mask = some fun k => if nyquistMask N k then 1 else 0) (hNM : ∀ i, N i ≤ M i) (F : ℝ[X])
    (hSk : c.Sk = scalarProduct q (n + 4) phi (F.map Complex.ofRealHom)) (la : LA (RModes N) (Fin n → ℂ) (Fin (n + 2) → ℂ)) (hla : la.Solves c.nu c.dt c.G c.M)
    (x : St (RModes N) (Fin n → ℂ) (Fin (n + 2) → ℂ)) (hx : x.U0 = x.U ∧ x.g = vorticity c.G x.U ∧ x.H1 = c.conv x.U x.g) (hU : StoredVel N x.U)
    (dir : Fin 2) (hF : dir = 0 → F = 0) (hm : PlanarVel q L dir x.U) (m : ℕ) : PlanarVel q L dir ((tick c la id)^[m] x).U :=
  (planarFlow_iff (C106_kmm_along S hmask hNM F hSk la hla x hx hU dir hm.1 m)).2
    (C102_kmm_symmetric S hmask (motion_zero hN (posM hN hNM) S.sides) 1 (mirror dir) F (mirror_source hF) hSk la hla x hx hU ((planarFlow_iff hm.1).1 hm) m)

/-- **C106 (KMMRK3).** -/
theorem C106_kmmrk3_along (S : ChebCtx q n M L hN c kind) (hmask : c.mask = some fun k => if nyquistMask N k then 1 else 0) (hNM : ∀ i, N i ≤ M i) (F : ℝ[X])
    (hSk : c.Sk = scalarProduct q (n + 4) phi (F.map Complex.ofRealHom)) (la : Fin 3 → LA (RModes N) (Fin n → ℂ) (Fin (n + 2) → ℂ))
    (hla : ∀ rk, (la rk).Solves3 c.nu c.dt (rkA rk + rkB rk) c.G c.M) (x : St3 (RModes N) (Fin n → ℂ) (Fin (n + 2) → ℂ)) (hx : x.g = vorticity c.G x.U) (hU : StoredVel N x.U)
    (dir : Fin 2) (hm : AlongVel q L dir x.U) (m : ℕ) : AlongVel q L dir ((tick3 c la id)^[m] x).U := by
  rw [alongVel_iff hN hNM S.sides] at hm ⊢
  exact C102_kmmrk3_start S hmask (motion_cell hN (posM hN hNM) S.sides dir) 1 1 F F (fun x => by simp) hSk c (by rw [← hSk]) la hla x x hx hx
    ⟨fun j => (hU.1 j).1, fun j => (hU.2.1 j).1, fun j => (hU.2.2 j).1⟩ hU hm m

@[inherit_doc C106_kmm_planar]
theorem C106_kmmrk3_planar (S : ChebCtx q n M L hN c kind) (hmask : c.mask = some fun k => if nyquistMask N k then 1 else 0) (hNM : ∀ i, N i ≤ M i) (F : ℝ[X])
    (hSk : c.Sk = scalarProduct q (n + 4) phi (F.map Complex.ofRealHom)) (la : Fin 3 → LA (RModes N) (Fin n → ℂ) (Fin (n + 2) → ℂ))
    (hla : ∀ rk, (la rk).Solves3 c.nu c.dt (rkA rk + rkB rk) c.G c.M) (x : St3 (RModes N) (Fin n → ℂ) (Fin (n + 2) → ℂ)) (hx : x.g = vorticity c.G x.U) (hU : StoredVel N x.U)
    (dir : Fin 2) (hF : dir = 0 → F = 0) (hm : PlanarVel q L dir x.U) (m : ℕ) : PlanarVel q L dir ((tick3 c la id)^[m] x).U :=
  (planarFlow_iff (C106_kmmrk3_along S hmask hNM F hSk la hla x hx hU dir hm.1 m)).2
    (C102_kmmrk3_start S hmask (motion_zero hN (posM hN hNM) S.sides) 1 (mirror dir) F F (mirror_source hF) hSk c (by rw [← hSk]) la hla x x hx hx
      ⟨fun j => (hU.1 j).1, fun j => (hU.2.1 j).1, fun j => (hU.2.2 j).1⟩ hU ((planarFlow_iff hm.1).1 hm) m)

/-- The temperature does not vary in a direction along the walls iff it is left in place by a displacement by one cell. -/
theorem alongTemp_iff (hN : ∀ i, 0 < N i) (hNM : ∀ i, N i ≤ M i) (hL : ∀ i, L i ≠ 0) {t : Temp (RModes N) (Fin (n + 2) → ℂ)} :
    Along dir (fieldT L t) ↔ MovedTemp L bc 1 1 (cell L M dir) t t := by
  rw [fieldT, along_iff (posM hN hNM dir) (hNM dir) (hL dir)]
  refine forall_congr' fun x => forall_congr' fun _ => forall_congr' fun y => forall_congr' fun z => ?_
  simp [fieldT]

theorem mirrorTemp {t : Temp (RModes N) (Fin (n + 2) → ℂ)} (ht : Along dir (fieldT L t)) : MovedTemp L bc 1 (mirror dir) 0 t t := fun x hx y z => by
  simpa using mirror_along ht x hx y z

/-- **C106 (KMM_RB).**  Started from rest with a temperature which does not vary in a direction along the walls, KMM_RB computes a two-dimensional flow and temperature: neither varies in
that direction, and there is no flow in that direction. -/
theorem C106_kmm_rb (S : ChebCtx q n M L hN c kind) (hmask : c.mask = some fun k => if nyquistMask N k then 1 else 0) (hNM : ∀ i, N i ≤ M i) (hSk : c.Sk = 0)
    (la : LA (RModes N) (Fin n → ℂ) (Fin (n + 2) → ℂ)) (hla : la.Solves c.nu c.dt c.G c.M) (solveT : RModes N → (Fin (n + 2) → ℂ) → Fin (n + 2) → ℂ)
    (hsT : SolvesT (chebRB bc q qT n c kappa (prodBwall q n (rspace N M)) (prodDwall q n (rspace N M))) 1 solveT)
    (t : Temp (RModes N) (Fin (n + 2) → ℂ)) (ht : HasBC bc c.G.zero t ∧ StoredWall N t.d) (dir : Fin 2) (hm : Along dir (fieldT L t)) (m : ℕ) :
    let y := (tickRB (chebRB bc q qT n c kappa (prodBwall q n (rspace N M)) (prodDwall q n (rspace N M))) la solveT)^[m] (startRB t)
    PlanarVel q L dir y.s.U ∧ Along dir (fieldT L y.phi0) ∧ (0 < m → Along dir (fieldT L y.phi)) := by
  have h1 := C104_kmm_rb_symmetric S hmask (motion_cell hN (posM hN hNM) S.sides dir) hNM 1 1 hSk la hla solveT hsT t ht ((alongTemp_iff hN hNM S.sides).1 hm) m
  have h2 := C104_kmm_rb_symmetric S hmask (motion_zero hN (posM hN hNM) S.sides) hNM 1 (mirror dir) hSk la hla solveT hsT t ht (mirrorTemp hm) m
  exact ⟨(planarFlow_iff ((alongVel_iff hN hNM S.sides).2 h1.1)).2 h2.1, (alongTemp_iff hN hNM S.sides).2 h1.2.1, fun h0 => (alongTemp_iff hN hNM S.sides).2 (h1.2.2 h0)⟩

/-- **C106 (KMMRK3_RB).**  If neither flow nor temperature vary in a direction along the walls at the start, they never do; and if there is no flow in that direction at the start
(and no source in that direction), there never is. -/
theorem C106_kmmrk3_rb (S : ChebCtx q n M L hN c kind) (hmask : c.mask = some fun k => if nyquistMask N k then 1 else 0) (hNM : ∀ i, N i ≤ M i)
    (F : ℝ[X]) (hSk : c.Sk = scalarProduct q (n + 4) phi (F.map Complex.ofRealHom))
    {prodB : Temp (RModes N) (Fin (n + 2) → ℂ) → (RModes N → Fin n → ℂ) → RModes N → Fin n → ℂ}
    {prodD : Temp (RModes N) (Fin (n + 2) → ℂ) → (RModes N → Fin (n + 2) → ℂ) → RModes N → Fin (n + 2) → ℂ}
    (la : Fin 3 → LA (RModes N) (Fin n → ℂ) (Fin (n + 2) → ℂ)) (hla : ∀ rk, (la rk).Solves3 c.nu c.dt (rkA rk + rkB rk) c.G c.M)
    (solveT : Fin 3 → RModes N → (Fin (n + 2) → ℂ) → Fin (n + 2) → ℂ) (hsT : ∀ rk, SolvesT (chebRB bc q qT n c kappa prodB prodD) (rkA rk + rkB rk) (solveT rk))
    (x : RB3St (RModes N) (Fin n → ℂ) (Fin (n + 2) → ℂ)) (hx : StoredVel N x.s.U ∧ x.s.g = vorticity c.G x.s.U ∧ HasBC bc c.G.zero x.phi ∧ StoredWall N x.phi.d)
    (dir : Fin 2) (hm : AlongVel q L dir x.s.U ∧ Along dir (fieldT L x.phi)) (m : ℕ) :
    let y := (integrateRB3 (chebRB bc q qT n c kappa prodB prodD) (standardRB q n (chebWall q n) (rspace N M) c.G) la solveT)^[m] x
    AlongVel q L dir y.s.U ∧ Along dir (fieldT L y.phi) ∧ ((dir = 0 → F = 0) → PlanarVel q L dir x.s.U → PlanarVel q L dir y.s.U) := by
  have hu : UnmaskedVel N x.s.U := ⟨fun j => (hx.1.1 j).1, fun j => (hx.1.2.1 j).1, fun j => (hx.1.2.2 j).1⟩
  have key : ∀ (h : Fin 2 → ℝ) (s : Fin 2 → ℤˣ), Motion N M L 1 h → (∀ x, F.eval x = ((s 0 : ℤ) : ℝ) * F.eval ((((1 : ℤˣ) : ℤ) : ℝ) * x)) → MovedVel q L 1 s h x.s.U x.s.U →
      MovedTemp L bc 1 s h x.phi x.phi →
      let y := (integrateRB3 (chebRB bc q qT n c kappa prodB prodD) (standardRB q n (chebWall q n) (rspace N M) c.G) la solveT)^[m] x
      MovedVel q L 1 s h y.s.U y.s.U ∧ MovedTemp L bc 1 s h y.phi y.phi := fun h s H hF hv ht => by
    have hg : StoredWall N x.s.g ∧ MovedVort L 1 s h x.s.g x.s.g := by rw [hx.2.1, S.grid]; exact vort_of_moved H hx.1 hv
    exact C104_kmmrk3_rb S hmask H 1 s F F hF hSk c (by rw [← hSk]) la hla solveT hsT x x ⟨hu, fun j => (hg.1 j).1, hx.2.2.1, fun j => (hx.2.2.2 j).1⟩ ⟨hx.1, hg.1, hx.2.2⟩
      ⟨hv, hg.2, ht⟩ m
  have h1 := key _ 1 (motion_cell hN (posM hN hNM) S.sides dir) (fun x => by simp) ((alongVel_iff hN hNM S.sides).1 hm.1) ((alongTemp_iff hN hNM S.sides).1 hm.2)
  have ha := (alongVel_iff hN hNM S.sides).2 h1.1
  refine ⟨ha, (alongTemp_iff hN hNM S.sides).2 h1.2, fun hF hp => ?_⟩
  exact (planarFlow_iff ha).2 (key 0 (mirror dir) (motion_zero hN (posM hN hNM) S.sides) (mirror_source hF) ((planarFlow_iff hm.1).1 hp) (mirrorTemp hm.2)).1

theorem along_of_support {a : RModes N → ℂ[X]} (ha : ∀ k, waves N dir k ≠ 0 → a k = 0) : Along dir (fieldOf N L a) := fun x _ y z b => by
  simp only [fieldOf, Field.field]
  congr 1
  refine Finset.sum_congr rfl fun k _ => ?_
  by_cases hk : waves N dir k = 0
  · congr 2
    fin_cases dir <;> simp [scaledWaves] at hk ⊢ <;> simp [hk]
  · simp [ha k hk]

/-- Two-dimensional channel flow on a mesh with `8 × 8 × 7` points and the 3/2-rule, driven by a pressure gradient: started from `v = (2 - 2 x²) cos 2πy`, `u = w = 0`,
the flow computed by KMM never varies with `z` and has `w = 0`. -/
example : ∃ (c : Ctx (RModes ![8, 8]) (Fin 3 → ℂ) (Fin 5 → ℂ)) (la : LA (RModes ![8, 8]) (Fin 3 → ℂ) (Fin 5 → ℂ)) (x : St (RModes ![8, 8]) (Fin 3 → ℂ) (Fin 5 → ℂ)),
    la.Solves c.nu c.dt c.G c.M ∧ c.Sk = scalarProduct .GL 7 phi 1 ∧
    (∀ X ∈ Icc (-1 : ℝ) 1, ∀ Y Z, fieldV (chebWall .GL 3) ![1, 2] x.U X Y Z = (2 - 2 * X ^ 2) * Real.cos (2 * Real.pi * Y)) ∧
    ∀ m : ℕ, PlanarVel .GL ![1, 2] 1 ((tick c la id)^[m] x).U := by
  have hN : ∀ i : Fin 2, 0 < (![8, 8] : Fin 2 → ℕ) i := fun i => by fin_cases i <;> norm_num
  have H : Motion (n := 1) ![8, 8] ![12, 12] ![1, 2] 1 0 := motion_zero hN (fun i => by fin_cases i <;> norm_num) (fun i => by fin_cases i <;> norm_num)
  let c : Ctx (RModes ![8, 8]) (Fin 3 → ℂ) (Fin 5 → ℂ) :=
    { nu := 1 / 100, dt := 1 / 10, G := waveGrid ![8, 8] ![1, 2] hN, M := chebMats .GL 3, mask := some fun k => if nyquistMask (n := 1) ![8, 8] k then 1 else 0,
      conv := convection .vortex (chebWall .GL 3) (rspace ![8, 8] ![12, 12]) (waveGrid ![8, 8] ![1, 2] hN),
      Sk := scalarProduct .GL 7 phi ((C 1 : ℝ[X]).map Complex.ofRealHom) }
  have S : ChebCtx .GL 3 ![12, 12] ![1, 2] hN c .vortex := ⟨fun i => by fin_cases i <;> norm_num, rfl, rfl, by norm_num [c], rfl⟩
  obtain ⟨la, hla, -⟩ := Galerkin.C75_kmm .GL 3 c.G c.nu c.dt S.visc (by norm_num [c])
  let k1 : RModes (n := 1) ![8, 8] := fun i => ⟨if i = 0 then 1 else 0, by fin_cases i <;> decide⟩
  let U : Vel (RModes ![8, 8]) (Fin 3 → ℂ) (Fin 5 → ℂ) := ⟨0, fun k j => if k = k1 ∧ j = 0 then 1 else 0, 0⟩
  have w0 : waves (n := 1) ![8, 8] 0 k1 = 1 := by decide
  have w1 : waves (n := 1) ![8, 8] 1 k1 = 0 := by decide
  have hU : UnmaskedVel ![8, 8] U := ⟨fun j k hk => rfl, fun j k hk => by
    by_cases e : k = k1
    · subst e; exact absurd hk (by decide)
    · simp [U, e], fun j k hk => rfl⟩
  obtain ⟨U', hU', hm⟩ := exists_movedVel H .GL 1 1 U hU
  have v0 : ∀ k, k ≠ k1 → U.v k = 0 := fun k hk => by funext j; simp [U, hk]
  have eV : ∀ X Y Z, fieldV (chebWall .GL 3) ![1, 2] U X Y Z = (2 - 2 * X ^ 2) * Real.cos (2 * Real.pi * Y) := fun X Y Z => by
    simp only [fieldV, fieldOf, Field.field]
    rw [Finset.sum_eq_single k1 (fun k _ hk => by rw [v0 k hk, map_zero]; simp) (by simp)]
    have e1 : (fun j : Fin 5 => if k1 = k1 ∧ j = 0 then (1 : ℂ) else 0) = Pi.single 0 1 := by funext j; simp [Pi.single_apply]
    have e2 : (rweight (n := 1) ![8, 8] k1) = 1 := by rw [rweight, if_pos (Or.inl (show waves (n := 1) ![8, 8] (Fin.last 1) k1 = 0 from w1))]
    have e3 : ((chebWall .GL 3).fD (U.v k1)).eval (X : ℂ) = ((2 - 2 * X ^ 2 : ℝ) : ℂ) := by
      show (expandC phi (fun j : Fin 5 => if k1 = k1 ∧ j = 0 then (1 : ℂ) else 0)).eval (X : ℂ) = _
      rw [e1, expandC]
      simp [Fin.sum_univ_succ, phi, Polynomial.Chebyshev.T_two, Pi.single_apply]
      ring
    rw [e2, e3, scaledWaves, scaledWaves, w0, w1]
    have e4 : Complex.I * (((2 * Real.pi / (![1, 2] : Fin 2 → ℝ) 0 * (1 : ℤ) : ℝ) : ℂ) * Y + ((2 * Real.pi / (![1, 2] : Fin 2 → ℝ) 1 * (0 : ℤ) : ℝ) : ℂ) * Z) = ((2 * Real.pi * Y : ℝ) : ℂ) * Complex.I := by
      simp; ring
    rw [e4, Complex.ofReal_one, one_mul, Complex.re_ofReal_mul, Complex.exp_ofReal_mul_I_re]
  have hp : PlanarVel .GL ![1, 2] 1 U' := by
    have up : PlanarVel .GL ![1, 2] 1 U := by
      refine ⟨⟨along_of_support fun k _ => ?_, along_of_support fun k hk => ?_, along_of_support fun k _ => ?_⟩, fun x _ y z => ?_⟩
      · simp [U]
      · have : k ≠ k1 := fun e => hk (e ▸ w1)
        simp only [U, this, false_and, if_false]
        exact map_zero _
      · simp [U]
      · simp [fieldW, fieldOf, Field.field, U]
    have tr : ∀ {e : ℤˣ} {f g : Scalar}, e = 1 → MovedBetween 1 1 0 e f g → ∀ x ∈ Icc (-1 : ℝ) 1, ∀ y z, g x y z = f x y z := fun he hfg x hx y z => by
      subst he; simpa using hfg x hx y z
    have a : ∀ {f g : Scalar}, (∀ x ∈ Icc (-1 : ℝ) 1, ∀ y z, g x y z = f x y z) → Along 1 f → Along 1 g := fun hfg hf x hx y z b => by
      rw [hfg x hx, hfg x hx]; exact hf x hx y z b
    exact ⟨⟨a (tr rfl hm.1) up.1.1, a (tr rfl hm.2.1) up.1.2.1, a (tr rfl hm.2.2) up.1.2.2⟩, fun x hx y z => (tr rfl hm.2.2 x hx y z).trans (up.2 x hx y z)⟩
  let x : St (RModes ![8, 8]) (Fin 3 → ℂ) (Fin 5 → ℂ) := ⟨U', vorticity c.G U', c.conv U' (vorticity c.G U'), c.conv U' (vorticity c.G U'), c.conv U' (vorticity c.G U'), U'⟩
  refine ⟨c, la, x, hla, by simp [c], fun X hX Y Z => ?_, C106_kmm_planar S rfl (fun i => by fin_cases i <;> norm_num) (C 1) rfl la hla x ⟨rfl, rfl, rfl⟩ hU' 1 (by simp) hp⟩
  rw [← eV X Y Z]
  simpa using hm.2.1 X hX Y Z

/-- Two-dimensional convection on the mesh of the example above: any temperature which does not vary with `z`. -/
example (t : Temp (RModes ![8, 8]) (Fin 5 → ℂ)) (hN : ∀ i : Fin 2, 0 < (![8, 8] : Fin 2 → ℕ) i) (ht : HasBC (0, 1) (waveGrid ![8, 8] ![1, 2] hN).zero t) (hu : StoredWall ![8, 8] t.d)
    (hz : Along 1 (fieldT ![1, 2] t)) : ∃ (c : Ctx (RModes ![8, 8]) (Fin 3 → ℂ) (Fin 5 → ℂ)) (la : LA (RModes ![8, 8]) (Fin 3 → ℂ) (Fin 5 → ℂ)),
      let rb := chebRB (0, 1) .GC .GL 3 c (1 / 50) (prodBwall .GC 3 (rspace ![8, 8] ![12, 12])) (prodDwall .GC 3 (rspace ![8, 8] ![12, 12]))
      ∃ solveT, la.Solves c.nu c.dt c.G c.M ∧ SolvesT rb 1 solveT ∧ ∀ m : ℕ,
        PlanarVel .GC ![1, 2] 1 ((tickRB rb la solveT)^[m] (startRB t)).s.U ∧ Along 1 (fieldT ![1, 2] ((tickRB rb la solveT)^[m] (startRB t)).phi0) := by
  let c : Ctx (RModes ![8, 8]) (Fin 3 → ℂ) (Fin 5 → ℂ) :=
    { nu := 1 / 100, dt := 1 / 10, G := waveGrid ![8, 8] ![1, 2] hN, M := chebMats .GC 3, mask := some fun k => if nyquistMask (n := 1) ![8, 8] k then 1 else 0,
      conv := convection .vortex (chebWall .GC 3) (rspace ![8, 8] ![12, 12]) (waveGrid ![8, 8] ![1, 2] hN), Sk := 0 }
  have S : ChebCtx .GC 3 ![12, 12] ![1, 2] hN c .vortex := ⟨fun i => by fin_cases i <;> norm_num, rfl, rfl, by norm_num [c], rfl⟩
  obtain ⟨la, hla, -⟩ := Galerkin.C75_kmm .GC 3 c.G c.nu c.dt S.visc (by norm_num [c])
  obtain ⟨solveT, hsT⟩ := (Galerkin.C75_rb .GC 3 (chebRB (0, 1) .GC .GL 3 c (1 / 50) (prodBwall .GC 3 (rspace ![8, 8] ![12, 12])) (prodDwall .GC 3 (rspace ![8, 8] ![12, 12]))) rfl rfl
    (by norm_num [chebRB]) (by norm_num [chebRB, c]) 1 (Or.inl rfl)).exists
  exact ⟨c, la, solveT, hla, hsT, fun m => by
    have := C106_kmm_rb S rfl (fun i => by fin_cases i <;> norm_num) rfl la hla solveT hsT t ⟨ht, hu⟩ 1 hz m
    exact ⟨this.1, this.2.1⟩⟩

end SpectralDNS.Channel

namespace SpectralDNS.Coupled

open Channel Polynomial Periodic Spec Spec.Field Dealias

variable {N M : Fin 2 → ℕ} {n : ℕ} {q : Quad} {L : Fin 2 → ℝ} {hN : ∀ i, 0 < N i}
  {c : Ctx (RModes N) (Fin (n + 2) → ℂ) (Fin (n + 4) → ℂ) (Fin (n + 4) → ℂ)} {d : Channel.Ctx (RModes N) (Fin n → ℂ) (Fin (n + 2) → ℂ)} {kind : Channel.ConvKind}

/-- The flow of a coupled solver with coefficients `U` does not vary in the direction `dir`. -/
def AlongVel (q : Quad) (L : Fin 2 → ℝ) (dir : Fin 2) (U : Vel (RModes N) (Fin (n + 2) → ℂ)) : Prop :=
  AlongFlow dir (fieldU (chebWall q n) L (asVel U)) (fieldV (chebWall q n) L (asVel U)) (fieldW (chebWall q n) L (asVel U))

/-- The flow of a coupled solver with coefficients `U` is two-dimensional. -/
def PlanarVel (q : Quad) (L : Fin 2 → ℝ) (dir : Fin 2) (U : Vel (RModes N) (Fin (n + 2) → ℂ)) : Prop :=
  PlanarFlow dir (fieldU (chebWall q n) L (asVel U)) (fieldV (chebWall q n) L (asVel U)) (fieldW (chebWall q n) L (asVel U))

theorem sameSource {b : Fin (n + 2) → ℂ} (hSk : c.Sk1 c.G.zero = b) : c = { c with Sk1 := Function.update c.Sk1 c.G.zero b } := by
  rw [← hSk, Function.update_eq_self]

/-- **C106 (Coupled).**  Started from a divergence free flow `V`. -/
theorem C106_coupled (S : Setup q n M L hN c d kind) (hmask : c.mask = some fun k => if nyquistMask N k then 1 else 0) (hNM : ∀ i, N i ≤ M i)
    (F : ℝ[X]) (hSk : c.Sk1 c.G.zero = scalarProduct q (n + 4) phi (F.map Complex.ofRealHom))
    (solve : Vec (RModes N) (Fin (n + 2) → ℂ) → Vel (RModes N) (Fin (n + 2) → ℂ) × (RModes N → Fin (n + 4) → ℂ))
    (hs : Solves c (2 / c.nu / c.dt) (2 / c.nu) (rest n) (pinFirst n) (pinLast n) solve)
    (V : Channel.Vel (RModes N) (Fin n → ℂ) (Fin (n + 2) → ℂ)) (hV : StoredVel N V) (hsol : Channel.Solenoidal d V (vorticity d.G V))
    (x : St (RModes N) (Fin (n + 2) → ℂ) (Fin (n + 4) → ℂ)) (hx : Same x.U V) (hH : x.H1 = c.conv x.U) (dir : Fin 2) (hm : Channel.AlongVel q L dir V) (m : ℕ) :
    AlongVel q L dir ((tick c solve id)^[m] x).U ∧ ((dir = 0 → F = 0) → Channel.PlanarVel q L dir V → PlanarVel q L dir ((tick c solve id)^[m] x).U) := by
  have hu : UnmaskedVel N V := ⟨fun j => (hV.1 j).1, fun j => (hV.2.1 j).1, fun j => (hV.2.2 j).1⟩
  have hM := posM hN hNM
  have ha : AlongVel q L dir ((tick c solve id)^[m] x).U := (alongFlow_iff (hM dir) (hNM dir) (S.sides dir)).2
    (C102_coupled S hmask (motion_cell hN hM S.sides dir) 1 1 F F (fun x => by simp) hSk c (sameSource hSk) solve solve hs hs V V hu hV hsol
      ((alongVel_iff hN hNM S.sides).1 hm) x x hx hx hH hH m)
  exact ⟨ha, fun hF hp => (planarFlow_iff ha).2 (C102_coupled S hmask (motion_zero hN hM S.sides) 1 (mirror dir) F F (mirror_source hF) hSk c (sameSource hSk) solve solve hs hs
    V V hu hV hsol ((planarFlow_iff hm).1 hp) x x hx hx hH hH m)⟩

/-- **C106 (CoupledRK3).** -/
theorem C106_coupledrk3 (S : Setup q n M L hN c d kind) (hmask : c.mask = some fun k => if nyquistMask N k then 1 else 0) (hNM : ∀ i, N i ≤ M i)
    (F : ℝ[X]) (hSk : c.Sk1 c.G.zero = scalarProduct q (n + 4) phi (F.map Complex.ofRealHom))
    (solve : Fin 3 → Vec (RModes N) (Fin (n + 2) → ℂ) → Vel (RModes N) (Fin (n + 2) → ℂ) × (RModes N → Fin (n + 4) → ℂ))
    (hs : ∀ rk, Solves c (2 / c.nu / c.dt / rkG rk) (2 / c.nu / rkG rk) (rest n) (pinFirst n) (pinLast n) (solve rk))
    (V : Channel.Vel (RModes N) (Fin n → ℂ) (Fin (n + 2) → ℂ)) (hV : StoredVel N V) (hsol : Channel.Solenoidal d V (vorticity d.G V))
    (x : St3 (RModes N) (Fin (n + 2) → ℂ) (Fin (n + 4) → ℂ)) (hx : Same x.U V) (dir : Fin 2) (hm : Channel.AlongVel q L dir V) (m : ℕ) :
    AlongVel q L dir ((tick3 c solve id)^[m] x).U ∧ ((dir = 0 → F = 0) → Channel.PlanarVel q L dir V → PlanarVel q L dir ((tick3 c solve id)^[m] x).U) := by
  have hu : UnmaskedVel N V := ⟨fun j => (hV.1 j).1, fun j => (hV.2.1 j).1, fun j => (hV.2.2 j).1⟩
  have hM := posM hN hNM
  have ha : AlongVel q L dir ((tick3 c solve id)^[m] x).U := (alongFlow_iff (hM dir) (hNM dir) (S.sides dir)).2
    (C102_coupledrk3 S hmask (motion_cell hN hM S.sides dir) 1 1 F F (fun x => by simp) hSk c (sameSource hSk) solve solve hs hs V V hu hV hsol
      ((alongVel_iff hN hNM S.sides).1 hm) x x hx hx m)
  exact ⟨ha, fun hF hp => (planarFlow_iff ha).2 (C102_coupledrk3 S hmask (motion_zero hN hM S.sides) 1 (mirror dir) F F (mirror_source hF) hSk c (sameSource hSk) solve solve hs hs
    V V hu hV hsol ((planarFlow_iff hm).1 hp) x x hx hx m)⟩

end SpectralDNS.Coupled

namespace SpectralDNS.KMMr

open Channel (Quad LA chebMats chebWall UnmaskedWall StoredWall VanVel VanA vorticity scalarProduct phi)
open Periodic Spec.Field Polynomial Dealias

variable {N M : Fin 2 → ℕ} {n : ℕ} {q : Quad} {L : Fin 2 → ℝ} {hN : ∀ i, 0 < N i} {c : Ctx (RModes N) (Fin n → ℂ) (Fin (n + 2) → ℂ)}

/-- A field between the walls `z = -1`, `z = 1` does not vary in the direction of `x` (`dir = 0`) or `y` (`dir = 1`). -/
def AlongField (dir : Fin 2) (f : Scalar) : Prop :=
  ∀ x y a, ∀ z ∈ Set.Icc (-1 : ℝ) 1, f (x + if dir = 0 then a else 0) (y + if dir = 1 then a else 0) z = f x y z

/-- **C106 (KMMr).**  The walls are at `z = -1, 1`, the directions along the walls those of `x` and `y`. -/
theorem C106_kmmr (S : ChebCtx q n M L hN c) (hmask : c.mask = some fun k => if nyquistMask N k then 1 else 0) (hNM : ∀ i, N i ≤ M i)
    (F : ℝ[X]) (hSk : c.Sk0 = scalarProduct q (n + 4) phi (F.map Complex.ofRealHom))
    (la : LA (RModes N) (Fin n → ℂ) (Fin (n + 2) → ℂ)) (hla : la.Solves c.nu c.dt c.rot.G c.M) (x : St (RModes N) (Fin n → ℂ) (Fin (n + 2) → ℂ))
    (hx : x.U0 = x.U ∧ x.g = vorticity (Channel.waveGrid N L hN) x.U.rot ∧ x.H1 = c.conv x.U x.g) (hU : Channel.StoredVel N x.U.rot)
    (dir : Fin 2) (hm : AlongField dir (field0 q n L x.U) ∧ AlongField dir (field1 q n L x.U) ∧ AlongField dir (field2 q n L x.U)) (m : ℕ) :
    let U := ((tick c la id)^[m] x).U
    (AlongField dir (field0 q n L U) ∧ AlongField dir (field1 q n L U) ∧ AlongField dir (field2 q n L U)) ∧
    ((dir = 0 → F = 0) → (∀ X Y, ∀ Z ∈ Set.Icc (-1 : ℝ) 1, (if dir = 0 then field0 q n L x.U else field1 q n L x.U) X Y Z = 0) →
      ∀ X Y, ∀ Z ∈ Set.Icc (-1 : ℝ) 1, (if dir = 0 then field0 q n L U else field1 q n L U) X Y Z = 0) := by
  intro U
  have hM := Channel.posM hN hNM
  have key : ∀ (h : Fin 2 → ℝ) (s : Fin 2 → ℤˣ), Motion N M L 1 h → (∀ x, F.eval x = ((s 0 : ℤ) : ℝ) * F.eval ((((1 : ℤˣ) : ℤ) : ℝ) * x)) →
      Channel.MovedVel q L 1 s h x.U.rot x.U.rot → Channel.MovedVel q L 1 s h U.rot U.rot := fun h s H hF hv => by
    have hg := Channel.vort_of_moved (hN := hN) H hU hv
    rw [← hx.2.1] at hg
    have hv' := movedVel_rot.2 hv
    exact movedVel_rot.1 (C102_kmmr_symmetric S hmask H 1 s F hF hSk la hla x x.U x.g hx.2.2 ⟨hU, by rw [hx.1]; exact hU, hU, hg.1, hg.1⟩
      ⟨hv', by rw [hx.1]; exact hv', hv', hg.2, hg.2⟩ m)
  have tr : ∀ V : Vel (RModes N) (Fin n → ℂ) (Fin (n + 2) → ℂ), (AlongField dir (field0 q n L V) ∧ AlongField dir (field1 q n L V) ∧ AlongField dir (field2 q n L V)) ↔
      Channel.AlongVel q L dir V.rot := fun V =>
    ⟨fun H => ⟨fun x hx y z a => H.2.2 y z a x hx, fun x hx y z a => H.1 y z a x hx, fun x hx y z a => H.2.1 y z a x hx⟩,
     fun H => ⟨fun x y a z hz => H.2.1 z hz x y a, fun x y a z hz => H.2.2 z hz x y a, fun x y a z hz => H.1 z hz x y a⟩⟩
  rw [tr] at hm ⊢
  have ha := (Channel.alongVel_iff hN hNM S.sides).2 (key _ 1 (Channel.motion_cell hN hM S.sides dir) (fun x => by simp) ((Channel.alongVel_iff hN hNM S.sides).1 hm))
  refine ⟨ha, fun hF hp => ?_⟩
  have hv : ∀ V : Vel (RModes N) (Fin n → ℂ) (Fin (n + 2) → ℂ), (∀ X Y, ∀ Z ∈ Set.Icc (-1 : ℝ) 1, (if dir = 0 then field0 q n L V else field1 q n L V) X Y Z = 0) ↔
      Vanishes (if dir = 0 then Channel.fieldV (chebWall q n) L V.rot else Channel.fieldW (chebWall q n) L V.rot) := fun V => by
    by_cases h : dir = 0
    · simp only [h, if_true]
      exact ⟨fun H x hx y z => H y z x hx, fun H X Y Z hZ => H Z hZ X Y⟩
    · simp only [h, if_false]
      exact ⟨fun H x hx y z => H y z x hx, fun H X Y Z hZ => H Z hZ X Y⟩
  rw [hv] at hp ⊢
  exact ((Channel.planarFlow_iff ha).2 (key 0 (Channel.mirror dir) (Channel.motion_zero hN hM S.sides) (Channel.mirror_source hF) ((Channel.planarFlow_iff hm).1 ⟨hm, hp⟩))).2

end SpectralDNS.KMMr

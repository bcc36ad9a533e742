import Verif.Lemmas.GalerkinDecay
import Verif.Lemmas.GalerkinMatrices
import Verif.Props.Laminar
import Verif.Model.ChebWall
import Mathlib.Analysis.SpecificLimits.Basic

/-!
# C75: the linear systems of the channel solvers have unique solutions;  C76: laminar channel flow tends to the parabolic profile
-/

namespace SpectralDNS.Galerkin

open Channel Polynomial Spec.Channel Laminar Finset Filter Topology

variable {κ : Type*}

theorem existsUnique_solver {ι V : Type*} (A : ι → V → V) (h : ∀ k, Function.Bijective (A k)) :
    ∃ S : ι → V → V, (∀ k b, A k (S k b) = b) ∧ ∀ S', (∀ k b, A k (S' k b) = b) → S' = S :=
  ⟨fun k => Function.surjInv (h k).2, fun k b => Function.surjInv_eq (h k).2 b, fun S' h' => by
    funext k b
    exact (h k).1 ((h' k b).trans (Function.surjInv_eq (h k).2 b).symm)⟩

theorem dirichlet_bijective (q : Quad) (n : ℕ) (c : ℝ) (hc : 0 ≤ c) :
    Function.Bijective fun v => -(chebMats q n).ADD v + (c : ℂ) • (chebMats q n).BDD v :=
  helmholtz_bijective q (n + 4) (n + 2) phi 2 le_rfl (by omega) degree_phi expand_phi c hc

theorem mass_bijective (q : Quad) (n : ℕ) : Function.Bijective (chebMats q n).BDD :=
  matC_bijective _ fun x hx => (mass_pos q (n + 4) (n + 2) phi 2 le_rfl (by omega) degree_phi x hx).ne'

/-- The three families of systems, with a Helmholtz constant and the three factors of the biharmonic systems. -/
theorem existsUnique_la (q : Quad) (n : ℕ) (cG : κ → ℝ) (hG : ∀ k, 0 ≤ cG k) (c4 c2 c0 : κ → ℝ) (h4 : ∀ k, c4 k < 0) (h2 : ∀ k, 0 ≤ c2 k)
    (h0 : ∀ k, c0 k ≤ 0) (cU : ℝ) (hU : 0 ≤ cU) : ∃! la : LA κ (Fin n → ℂ) (Fin (n + 2) → ℂ),
      (∀ k b, -(chebMats q n).ADD (la.helmholtzG k b) + (cG k : ℂ) • (chebMats q n).BDD (la.helmholtzG k b) = b) ∧
      (∀ k b, (c4 k : ℂ) • (chebMats q n).SBB (la.biharmonicU k b) + (c2 k : ℂ) • (chebMats q n).ABB (la.biharmonicU k b)
        + (c0 k : ℂ) • (chebMats q n).BBB (la.biharmonicU k b) = b) ∧
      (∀ b, -(chebMats q n).ADD0 (la.helmholtzU0 b) + (cU : ℂ) • (chebMats q n).BDD0 (la.helmholtzU0 b) = b) ∧
      ∀ b, (chebMats q n).BDD (la.tdmaD b) = b := by
  obtain ⟨SG, hSG, uG⟩ := existsUnique_solver _ fun k : κ => dirichlet_bijective q n (cG k) (hG k)
  obtain ⟨SB, hSB, uB⟩ := existsUnique_solver _ fun k : κ => biharmonic_bijective q (n + 4) n le_rfl (c4 k) (c2 k) (c0 k) (h4 k) (h2 k) (h0 k)
  obtain ⟨SU, hSU, uU⟩ := existsUnique_solver _ fun _ : Unit => dirichlet_bijective q n cU hU
  obtain ⟨SD, hSD, uD⟩ := existsUnique_solver _ fun _ : Unit => mass_bijective q n
  refine ⟨⟨SG, SB, SU (), SD ()⟩, ⟨hSG, hSB, hSU (), hSD ()⟩, ?_⟩
  rintro ⟨a, b, c, d⟩ ⟨ha, hb, hc, hd⟩
  have e1 := uG a ha
  have e2 := uB b hb
  have e3 := congrFun (uU (fun _ => c) fun _ => hc) ()
  have e4 := congrFun (uD (fun _ => d) fun _ => hd) ()
  subst e1 e2 e3 e4
  rfl

/-- C75: for a positive viscosity and time step every linear system of KMM has exactly one solution, whatever the resolution, the
wavenumbers and the quadrature. -/
theorem C75_kmm (q : Quad) (n : ℕ) (G : Channel.Grid κ) (nu dt : ℝ) (hnu : 0 < nu) (hdt : 0 < dt) :
    ∃! la : LA κ (Fin n → ℂ) (Fin (n + 2) → ℂ), la.Solves nu dt G (chebMats q n) := by
  have hK : ∀ k, 0 ≤ G.Ksq k := fun k => add_nonneg (mul_self_nonneg _) (mul_self_nonneg _)
  have h4 : ∀ k, 0 ≤ G.K4 k := fun k => sq_nonneg _
  obtain ⟨la, h, u⟩ := existsUnique_la (κ := κ) q n (fun k => G.Ksq k + 2 / nu / dt) (fun k => by have := hK k; positivity)
    (fun _ => -nu * dt / 2) (fun k => 1 + nu * dt * G.Ksq k) (fun k => -(G.Ksq k + nu * dt / 2 * G.K4 k))
    (fun _ => by have := mul_pos hnu hdt; linarith) (fun k => by have := hK k; positivity)
    (fun k => by have := hK k; have := h4 k; have : 0 ≤ nu * dt / 2 * G.K4 k := by positivity
                 linarith) (2 / nu / dt) (by positivity)
  exact ⟨la, ⟨h.1, h.2.1, h.2.2.1, h.2.2.2⟩, fun la' h' => u la' ⟨h'.helmholtzG, h'.biharmonicU, h'.helmholtzU0, h'.tdmaD⟩⟩

/-- C75 for the three substeps of KMMRK3. -/
theorem C75_kmmrk3 (q : Quad) (n : ℕ) (G : Channel.Grid κ) (nu dt : ℝ) (hnu : 0 < nu) (hdt : 0 < dt) (rk : Fin 3) :
    ∃! la : LA κ (Fin n → ℂ) (Fin (n + 2) → ℂ), la.Solves3 nu dt (rkA rk + rkB rk) G (chebMats q n) := by
  have hK : ∀ k, 0 ≤ G.Ksq k := fun k => add_nonneg (mul_self_nonneg _) (mul_self_nonneg _)
  have h4 : ∀ k, 0 ≤ G.K4 k := fun k => sq_nonneg _
  have hab : 0 < rkA rk + rkB rk := by fin_cases rk <;> simp [rkA, rkB] <;> norm_num
  generalize rkA rk + rkB rk = ab at hab
  obtain ⟨la, h, u⟩ := existsUnique_la (κ := κ) q n (fun k => G.Ksq k + 2 / nu / ab / dt) (fun k => by have := hK k; positivity)
    (fun _ => -nu * ab * dt / 2) (fun k => 1 + nu * ab * dt * G.Ksq k) (fun k => -(G.Ksq k + nu * ab * dt / 2 * G.K4 k))
    (fun _ => by have := mul_pos (mul_pos hnu hab) hdt; linarith) (fun k => by have := hK k; positivity)
    (fun k => by have := hK k; have := h4 k; have : 0 ≤ nu * ab * dt / 2 * G.K4 k := by positivity
                 linarith) (2 / nu / ab / dt) (by positivity)
  exact ⟨la, ⟨h.1, h.2.1, h.2.2.1, h.2.2.2⟩, fun la' h' => u la' ⟨h'.helmholtzG, h'.biharmonicU, h'.helmholtzU0, h'.tdmaD⟩⟩

/-- C75 for the temperature of the Rayleigh-Benard solvers (`ab` is one in KMM_RB, `a[rk]+b[rk]` in KMMRK3_RB). -/
theorem C75_rb [DecidableEq κ] (q : Quad) (n : ℕ) (r : RBCtx κ (Fin n → ℂ) (Fin (n + 2) → ℂ)) (hA : r.ADDR = (chebMats q n).ADD)
    (hB : r.BDDR = (chebMats q n).BDD) (hkappa : 0 < r.kappa) (hdt : 0 < r.c.dt) (ab : ℝ)
    (hab : ab = 1 ∨ ∃ rk, ab = rkA rk + rkB rk) : ∃! solveT, SolvesT r ab solveT := by
  have hab : 0 < ab := by
    rcases hab with rfl | ⟨rk, rfl⟩
    · exact one_pos
    · fin_cases rk <;> simp [rkA, rkB] <;> norm_num
  have hK : ∀ k, 0 ≤ r.c.G.Ksq k := fun k => add_nonneg (mul_self_nonneg _) (mul_self_nonneg _)
  obtain ⟨S, hS, u⟩ := existsUnique_solver _ fun k : κ => dirichlet_bijective q n (r.c.G.Ksq k + 2 / r.kappa / ab / r.c.dt)
    (by have := hK k; positivity)
  refine ⟨S, fun k b => ?_, fun S' h' => u S' fun k b => ?_⟩
  · rw [hA, hB]; exact hS k b
  · have := h' k b
    rw [hA, hB] at this; exact this

/-- C75: the matrices with derivatives do not depend on the quadrature (the mass matrices do, `C75_mass`). -/
theorem C75_quadrature (n : ℕ) : (chebMats .GC n).ADD = (chebMats .GL n).ADD ∧ (chebMats .GC n).ADD0 = (chebMats .GL n).ADD0 ∧
    (chebMats .GC n).ABB = (chebMats .GL n).ABB ∧ (chebMats .GC n).SBB = (chebMats .GL n).SBB ∧
    (chebMats .GC n).CBD = (chebMats .GL n).CBD ∧ (chebMats .GC n).CDB = (chebMats .GL n).CDB := by
  have key : ∀ (f g : ℕ → ℝ[X]) (a b d : ℕ), (∀ i : Fin a, (f i).degree < ((n + 4 : ℕ) : WithBot ℕ)) →
      (∀ i : Fin b, (g i).degree < ((n + 4 : ℕ) : WithBot ℕ)) → 1 ≤ d → entry .GC (n + 4) f g d a b = entry .GL (n + 4) f g d a b := by
    intro f g a b d hf hg hd
    funext i j
    rw [entry, entry, quad_exact_form _ _ _ (by omega) hd _ _ (hg j) (hf i), quad_exact_form _ _ _ (by omega) hd _ _ (hg j) (hf i)]
  have hphi : ∀ i : Fin (n + 2), (phi i).degree < ((n + 4 : ℕ) : WithBot ℕ) := fun j => by
    rw [degree_phi]
    exact_mod_cast (by have := j.2; omega : (j : ℕ) + 2 < n + 4)
  have hpsi : ∀ i : Fin n, (psi i).degree < ((n + 4 : ℕ) : WithBot ℕ) := fun j => by
    rw [degree_psi]
    exact_mod_cast (by have := j.2; omega : (j : ℕ) + 4 < n + 4)
  refine ⟨?_, ?_, ?_, ?_, ?_, ?_⟩
  · exact congrArg matC (key _ _ _ _ 2 hphi hphi (by omega))
  · exact congrArg matC (key _ _ _ _ 2 hphi hphi (by omega))
  · exact congrArg matC (key _ _ _ _ 2 hpsi hpsi (by omega))
  · exact congrArg matC (key _ _ _ _ 4 hpsi hpsi (by omega))
  · exact congrArg matC (key _ _ _ _ 1 hpsi hphi (by omega))
  · exact congrArg matC (key _ _ _ _ 1 hphi hpsi (by omega))

/-- C75: closed forms of the matrices of the Dirichlet basis. -/
theorem C75_dirichlet (q : Quad) (n : ℕ) : (chebMats q n).ADD = (stiffMatrix (n + 4)).mulVecLin ∧
    (chebMats q n).BDD = (massMatrix (decide (q = .GL)) (n + 4)).mulVecLin := by
  constructor
  · rw [← entry_stiff q n]; rfl
  · rw [← entry_mass q n]; rfl

/-- The systems of a concrete run with eight points across the channel. -/
example : ∃! la : LA (Fin 5 × Fin 3) (Fin 4 → ℂ) (Fin 6 → ℂ),
    la.Solves (1 / 180) (1 / 1000) ⟨fun k => k.1, fun k => k.2, fun k => k.1, fun k => k.2, (0, 0)⟩ (chebMats .GL 4) :=
  C75_kmm .GL 4 _ _ _ (by norm_num) (by norm_num)

/-! ## C76 -/

/-- Discrete energy of a profile: the quadrature of its squared modulus. -/
noncomputable def energy (q : Quad) (N : ℕ) (p : ℂ[X]) : ℝ := ∑ j ∈ range N, quadWeight q N j * ‖p.eval (quadPoint q N j : ℂ)‖ ^ 2

/-- The parabolic profile of the driving force `2/Re`. -/
noncomputable def parabola (nu Re : ℝ) : ℂ[X] := Polynomial.C ((1 / (nu * Re) : ℝ) : ℂ) * (1 - X ^ 2)

theorem parabola_coeffs (n : ℕ) (nu Re : ℝ) : expandC phi (Pi.single (0 : Fin (n + 2)) ((1 / (nu * Re) / 2 : ℝ) : ℂ)) = parabola nu Re := by
  rw [expandC_apply, Finset.sum_eq_single 0]
  · rw [Pi.single_eq_same, parabola, phi_eq]
    simp only [Fin.val_zero, Nat.cast_zero, Chebyshev.U_zero, mul_one, Polynomial.map_mul, Polynomial.map_sub, Polynomial.map_one, Polynomial.map_pow,
      map_X, Polynomial.map_ofNat, smul_eq_C_mul]
    have : (Polynomial.C ((1 / (nu * Re) : ℝ) : ℂ)) = Polynomial.C ((1 / (nu * Re) / 2 : ℝ) : ℂ) * 2 := by
      rw [← map_ofNat Polynomial.C 2, ← map_mul]
      congr 1
      push_cast; ring
    rw [this]; ring
  · intro j _ hj
    rw [Pi.single_eq_of_ne hj, zero_smul]
  · simp

theorem energy_form (q : Quad) (n : ℕ) (v : Fin (n + 2) → ℂ) :
    energy q (n + 4) (expandC phi v) = formC (entry q (n + 4) phi phi 0 (n + 2) (n + 2)) v := (formC_energy _ _ _ _).symm

/-- Steps without force shrink the energy by a factor depending on the parameters only. -/
theorem energy_contract (q : Quad) (n : ℕ) (nu dt : ℝ) (hnu : 0 < nu) (hdt : 0 < dt) : ∃ rho : ℝ, 0 ≤ rho ∧ rho < 1 ∧
    ∀ v v', CrankNicolson (chebMats q n).BDD0 (chebMats q n).ADD0 nu dt 0 v v' →
      energy q (n + 4) (expandC phi v') ≤ rho * energy q (n + 4) (expandC phi v) := by
  obtain ⟨rho, h0, h1, h⟩ := chebC_contract q n nu dt hnu hdt
  exact ⟨rho, h0, h1, fun v v' hv => by rw [energy_form, energy_form]; exact h v v' hv⟩

theorem energy_mono (q : Quad) (n : ℕ) (nu dt : ℝ) (hnu : 0 < nu) (hdt : 0 < dt) (v v')
    (hv : CrankNicolson (chebMats q n).BDD0 (chebMats q n).ADD0 nu dt 0 v v') :
    energy q (n + 4) (expandC phi v') ≤ energy q (n + 4) (expandC phi v) := by
  rw [energy_form, energy_form]; exact chebC_mono q n nu dt hnu hdt v v' hv

theorem energy_contract3 (q : Quad) (n : ℕ) (nu dt : ℝ) (hnu : 0 < nu) (hdt : 0 < dt) : ∃ rho : ℝ, 0 ≤ rho ∧ rho < 1 ∧
    ∀ v v', CrankNicolson3 (chebMats q n).BDD0 (chebMats q n).ADD0 nu dt 0 v v' →
      energy q (n + 4) (expandC phi v') ≤ rho * energy q (n + 4) (expandC phi v) := by
  obtain ⟨rho, h0, h1, h⟩ := energy_contract q n nu (8 / 15 * dt) hnu (by positivity)
  refine ⟨rho, h0, h1, fun v v' ⟨y, y', a, b, c⟩ => ?_⟩
  exact (energy_mono q n nu _ hnu (by positivity) _ _ c).trans
    ((energy_mono q n nu _ hnu (by positivity) _ _ b).trans (h _ _ a))

theorem geometric {rho : ℝ} (h0 : 0 ≤ rho) {e : ℕ → ℝ} (h : ∀ m, e (m + 1) ≤ rho * e m) (m : ℕ) : e m ≤ rho ^ m * e 0 := by
  induction m with
  | zero => simp
  | succ m ih =>
    refine (h m).trans ?_
    rw [pow_succ, mul_comm (rho ^ m), mul_assoc]
    exact mul_le_mul_of_nonneg_left ih h0

theorem force_balance [DecidableEq κ] (q : Quad) (n : ℕ) (c : Ctx κ (Fin n → ℂ) (Fin (n + 2) → ℂ)) (hM : c.M = chebMats q n) (Re : ℝ)
    (hRe : Re ≠ 0) (hnu : c.nu ≠ 0) (hSk : c.Sk = set_Source (scalarProduct q (n + 4) phi) Re) : ∃ vP, expandC phi vP = parabola c.nu Re ∧
    ∀ dt v v', CrankNicolson c.M.BDD0 c.M.ADD0 c.nu dt (-c.Sk) v v' →
      CrankNicolson (chebMats q n).BDD0 (chebMats q n).ADD0 c.nu dt 0 (v - vP) (v' - vP) := by
  refine ⟨_, parabola_coeffs n c.nu Re, fun dt v v' h => ?_⟩
  have hp := (C74_poiseuille c (scalarProduct q (n + 4) phi) (expandC phi) Re dt hRe hnu (fun v => by
    rw [hM]; exact entry_test q (n + 4) (n + 2) 2 phi phi v) hSk _ (parabola_coeffs n c.nu Re)).2 v v'
  have := hp.1 h
  rw [hM] at this
  exact this

section Runs

variable [DecidableEq κ] {C Q P : Type*} [AddCommGroup C] [Module ℂ C] (q : Quad) (n : ℕ) {W : Wall (Fin n → ℂ) (Fin (n + 2) → ℂ) C Q} {T : Periodic.Space κ P}
  (c : Ctx κ (Fin n → ℂ) (Fin (n + 2) → ℂ)) (hM : c.M = chebMats q n) (hnu : 0 < c.nu) (hdt : 0 < c.dt) (Re : ℝ) (hRe : Re ≠ 0)
  (hSk : c.Sk = set_Source (scalarProduct q (n + 4) phi) Re) (h1 : c.G.K1 c.G.zero = 0) (h2 : c.G.K2 c.G.zero = 0) (hT : Flat T c.G.zero)
  (kind : ConvKind) (hconv : c.conv = convection kind W T c.G)

include hM hnu hdt hRe hSk h1 h2 hT hconv

/-- C76: in a KMM run from any flow parallel to the walls, driven by the source of the demo, the streamwise profile approaches the
parabola and the spanwise one zero, both geometrically; no time step is too large. -/
theorem C76_kmm (la : LA κ (Fin n → ℂ) (Fin (n + 2) → ℂ)) (hla : la.Solves c.nu c.dt c.G c.M) :
    ∃ rho : ℝ, 0 ≤ rho ∧ rho < 1 ∧ ∀ s0, IsLaminar c.G.zero s0 → ∀ m,
      let s := fun m => (tick c la id)^[m] s0
      energy q (n + 4) (expandC phi ((s m).U.v c.G.zero) - parabola c.nu Re) ≤
        rho ^ m * energy q (n + 4) (expandC phi (s0.U.v c.G.zero) - parabola c.nu Re) ∧
      energy q (n + 4) (expandC phi ((s m).U.w c.G.zero)) ≤ rho ^ m * energy q (n + 4) (expandC phi (s0.U.w c.G.zero)) := by
  obtain ⟨rho, r0, r1, hr⟩ := energy_contract q n c.nu c.dt hnu hdt
  obtain ⟨vP, hP, hbal⟩ := force_balance q n c hM Re hRe hnu.ne' hSk
  refine ⟨rho, r0, r1, fun s0 hs0 m => ?_⟩
  intro s
  have step := C74_kmm (W := W) (T := T) c la hnu.ne' hdt.ne' hla h1 h2 hT kind hconv s0 hs0
  constructor
  · refine geometric (e := fun m => energy q (n + 4) (expandC phi ((s m).U.v c.G.zero) - parabola c.nu Re)) r0 (fun m => ?_) m
    have := hr _ _ (hbal _ _ _ (step m).2.2.1)
    rwa [map_sub, map_sub, hP] at this
  · refine geometric (e := fun m => energy q (n + 4) (expandC phi ((s m).U.w c.G.zero))) r0 (fun m => ?_) m
    have h := (step m).2.2.2
    rw [hM] at h
    exact hr _ _ h

/-- C76 for KMMRK3. -/
theorem C76_kmmrk3 (la : Fin 3 → LA κ (Fin n → ℂ) (Fin (n + 2) → ℂ)) (hla : ∀ rk, (la rk).Solves3 c.nu c.dt (rkA rk + rkB rk) c.G c.M) :
    ∃ rho : ℝ, 0 ≤ rho ∧ rho < 1 ∧ ∀ s0 : St3 κ (Fin n → ℂ) (Fin (n + 2) → ℂ), Parallel c.G.zero s0.U → s0.g = 0 → ∀ m,
      let s := fun m => (tick3 c la id)^[m] s0
      energy q (n + 4) (expandC phi ((s m).U.v c.G.zero) - parabola c.nu Re) ≤
        rho ^ m * energy q (n + 4) (expandC phi (s0.U.v c.G.zero) - parabola c.nu Re) ∧
      energy q (n + 4) (expandC phi ((s m).U.w c.G.zero)) ≤ rho ^ m * energy q (n + 4) (expandC phi (s0.U.w c.G.zero)) := by
  obtain ⟨rho, r0, r1, hr⟩ := energy_contract3 q n c.nu c.dt hnu hdt
  obtain ⟨vP, hP, hbal⟩ := force_balance q n c hM Re hRe hnu.ne' hSk
  refine ⟨rho, r0, r1, fun s0 hs0 hg0 m => ?_⟩
  intro s
  have step := C74_kmmrk3 (W := W) (T := T) c la hnu.ne' hdt.ne' hla h1 h2 hT kind hconv s0 hs0 hg0
  constructor
  · refine geometric (e := fun m => energy q (n + 4) (expandC phi ((s m).U.v c.G.zero) - parabola c.nu Re)) r0 (fun m => ?_) m
    obtain ⟨y, y', a, b, d⟩ := (step m).2.2.1
    have := hr _ _ ⟨_, _, hbal _ _ _ a, hbal _ _ _ b, hbal _ _ _ d⟩
    rwa [map_sub, map_sub, hP] at this
  · refine geometric (e := fun m => energy q (n + 4) (expandC phi ((s m).U.w c.G.zero))) r0 (fun m => ?_) m
    have h := (step m).2.2.2
    rw [hM] at h
    exact hr _ _ h

end Runs

/-- Profiles whose energies tend to zero tend to zero at every point of the channel. -/
theorem energy_controls (q : Quad) (n : ℕ) (y : ℝ) (v : ℕ → Fin (n + 2) → ℂ) (h : Tendsto (fun m => energy q (n + 4) (expandC phi (v m))) atTop (𝓝 0)) :
    Tendsto (fun m => (expandC phi (v m)).eval (y : ℂ)) atTop (𝓝 0) := by
  let B := entry q (n + 4) phi phi 0 (n + 2) (n + 2)
  have hlin : ∀ x x' : Fin (n + 2) → ℝ, ∀ t : ℝ, (expand phi (t • x)).eval y = t * (expand phi x).eval y := fun x x' t => by
    simp only [expand, eval_finsetSum, eval_smul, smul_eq_mul, Finset.mul_sum, Pi.smul_apply]
    exact Finset.sum_congr rfl fun j _ => by ring
  have hcont : Continuous fun x : Fin (n + 2) → ℝ => (expand phi x).eval y := by
    simp only [expand, eval_finsetSum, eval_smul, smul_eq_mul]
    exact continuous_finsetSum _ fun j _ => (continuous_apply j).mul continuous_const
  obtain ⟨k, hk, hle⟩ := quad_dominates (form B) (fun x => (expand phi x).eval y ^ 2) (form_continuous B LinearMap.id LinearMap.id)
    (hcont.pow 2) (form_smul B) (fun t x => by simp only [hlin x x]; ring)
    (fun x hx => mass_pos q (n + 4) (n + 2) phi 2 le_rfl (by omega) degree_phi x hx)
  have hb : ∀ m, ‖(expandC phi (v m)).eval (y : ℂ)‖ ^ 2 ≤ k⁻¹ * energy q (n + 4) (expandC phi (v m)) := fun m => by
    rw [energy_form, formC, expandC_eval, Complex.sq_norm, Complex.normSq_add_mul_I]
    have a := hle fun j => (v m j).re
    have b := hle fun j => (v m j).im
    rw [le_inv_mul_iff₀ hk]
    linarith
  have h2 : Tendsto (fun m => ‖(expandC phi (v m)).eval (y : ℂ)‖ ^ 2) atTop (𝓝 0) :=
    squeeze_zero (fun m => sq_nonneg _) hb (by simpa using h.const_mul k⁻¹)
  have h3 : Tendsto (fun m => Real.sqrt (‖(expandC phi (v m)).eval (y : ℂ)‖ ^ 2)) atTop (𝓝 0) := by simpa using h2.sqrt
  rw [tendsto_zero_iff_norm_tendsto_zero]
  simpa using h3

theorem energy_nonneg (q : Quad) (N : ℕ) (hN : 2 ≤ N) (p : ℂ[X]) : 0 ≤ energy q N p :=
  sum_nonneg fun j _ => mul_nonneg (quadWeight_pos q N hN j).le (sq_nonneg _)

theorem tendsto_geometric {rho : ℝ} (h0 : 0 ≤ rho) (h1 : rho < 1) {e : ℕ → ℝ} (he : ∀ m, 0 ≤ e m) (h : ∀ m, e m ≤ rho ^ m * e 0) :
    Tendsto e atTop (𝓝 0) :=
  squeeze_zero he h (by simpa using (tendsto_pow_atTop_nhds_zero_of_lt_one h0 h1).mul_const (e 0))

section Limits

variable [DecidableEq κ] {C Q P : Type*} [AddCommGroup C] [Module ℂ C] (q : Quad) (n : ℕ) {W : Wall (Fin n → ℂ) (Fin (n + 2) → ℂ) C Q} {T : Periodic.Space κ P}
  (c : Ctx κ (Fin n → ℂ) (Fin (n + 2) → ℂ)) (hM : c.M = chebMats q n) (hnu : 0 < c.nu) (hdt : 0 < c.dt) (Re : ℝ) (hRe : Re ≠ 0)
  (hSk : c.Sk = set_Source (scalarProduct q (n + 4) phi) Re) (h1 : c.G.K1 c.G.zero = 0) (h2 : c.G.K2 c.G.zero = 0) (hT : Flat T c.G.zero)
  (kind : ConvKind) (hconv : c.conv = convection kind W T c.G)

include hM hnu hdt hRe hSk h1 h2 hT hconv

/-- C76: at every point of the channel the velocity tends to the parabolic profile. -/
theorem C76_limit (la : LA κ (Fin n → ℂ) (Fin (n + 2) → ℂ)) (hla : la.Solves c.nu c.dt c.G c.M) (s0) (hs0 : IsLaminar c.G.zero s0) (y : ℝ) :
    let s := fun m => (tick c la id)^[m] s0
    Tendsto (fun m => (expandC phi ((s m).U.v c.G.zero)).eval (y : ℂ)) atTop (𝓝 ((1 / (c.nu * Re) * (1 - y ^ 2) : ℝ) : ℂ)) ∧
    Tendsto (fun m => (expandC phi ((s m).U.w c.G.zero)).eval (y : ℂ)) atTop (𝓝 0) := by
  intro s
  obtain ⟨rho, r0, r1, hr⟩ := C76_kmm q n (W := W) (T := T) c hM hnu hdt Re hRe hSk h1 h2 hT kind hconv la hla
  have hr := hr s0 hs0
  obtain ⟨vP, hP, -⟩ := force_balance q n c hM Re hRe hnu.ne' hSk
  have hn : 2 ≤ n + 4 := by omega
  constructor
  · have := energy_controls q n y (fun m => (s m).U.v c.G.zero - vP)
      (tendsto_geometric r0 r1 (fun m => energy_nonneg q _ hn _) fun m => by rw [map_sub, map_sub, hP]; exact (hr m).1)
    have h3 := this.add_const ((parabola c.nu Re).eval (y : ℂ))
    simp only [map_sub, hP, eval_sub, sub_add_cancel, zero_add] at h3
    refine h3.trans (le_of_eq ?_)
    congr 1
    simp [parabola]
  · exact energy_controls q n y (fun m => (s m).U.w c.G.zero) (tendsto_geometric r0 r1 (fun m => energy_nonneg q _ hn _) fun m => (hr m).2)

/-- C76 for KMMRK3. -/
theorem C76_limit3 (la : Fin 3 → LA κ (Fin n → ℂ) (Fin (n + 2) → ℂ)) (hla : ∀ rk, (la rk).Solves3 c.nu c.dt (rkA rk + rkB rk) c.G c.M)
    (s0 : St3 κ (Fin n → ℂ) (Fin (n + 2) → ℂ)) (hs0 : Parallel c.G.zero s0.U) (hg0 : s0.g = 0) (y : ℝ) :
    let s := fun m => (tick3 c la id)^[m] s0
    Tendsto (fun m => (expandC phi ((s m).U.v c.G.zero)).eval (y : ℂ)) atTop (𝓝 ((1 / (c.nu * Re) * (1 - y ^ 2) : ℝ) : ℂ)) ∧
    Tendsto (fun m => (expandC phi ((s m).U.w c.G.zero)).eval (y : ℂ)) atTop (𝓝 0) := by
  intro s
  obtain ⟨rho, r0, r1, hr⟩ := C76_kmmrk3 q n (W := W) (T := T) c hM hnu hdt Re hRe hSk h1 h2 hT kind hconv la hla
  have hr := hr s0 hs0 hg0
  obtain ⟨vP, hP, -⟩ := force_balance q n c hM Re hRe hnu.ne' hSk
  have hn : 2 ≤ n + 4 := by omega
  constructor
  · have := energy_controls q n y (fun m => (s m).U.v c.G.zero - vP)
      (tendsto_geometric r0 r1 (fun m => energy_nonneg q _ hn _) fun m => by rw [map_sub, map_sub, hP]; exact (hr m).1)
    have h3 := this.add_const ((parabola c.nu Re).eval (y : ℂ))
    simp only [map_sub, hP, eval_sub, sub_add_cancel, zero_add] at h3
    refine h3.trans (le_of_eq ?_)
    congr 1
    simp [parabola]
  · exact energy_controls q n y (fun m => (s m).U.w c.G.zero) (tendsto_geometric r0 r1 (fun m => energy_nonneg q _ hn _) fun m => (hr m).2)

end Limits

/-! ## An instance: any plane grid, any number of points across the channel -/

section Instance

variable (N : Fin 2 → ℕ) (hN : ∀ i, 0 < N i) (q : Quad) (n : ℕ)

open Classical in
/-- Channel flow at `nu = 1/8000`, `Re = 8000`, with time step one, from rest: the limit at the centre is one. -/
example (kind : ConvKind) : ∃ la : LA (Periodic.RModes N) (Fin n → ℂ) (Fin (n + 2) → ℂ),
    let c : Ctx (Periodic.RModes N) (Fin n → ℂ) (Fin (n + 2) → ℂ) := ⟨1 / 8000, 1, midGrid N hN, chebMats q n, none,
      convection kind (chebWall q n) (Periodic.rspace N N) (midGrid N hN), set_Source (scalarProduct q (n + 4) phi) 8000⟩
    Tendsto (fun m => (expandC phi (((tick c la id)^[m] start).U.v c.G.zero)).eval ((0 : ℝ) : ℂ)) atTop (𝓝 1) := by
  obtain ⟨la, hla, -⟩ := C75_kmm q n (midGrid N hN) (1 / 8000) 1 (by norm_num) one_pos
  refine ⟨la, ?_⟩
  intro c
  have h1 : (midGrid N hN).K1 (midGrid N hN).zero = 0 := by
    show ((Periodic.waves N 0 (midGrid N hN).zero : ℤ) : ℝ) = 0
    rw [mid_waves]; simp
  have h2 : (midGrid N hN).K2 (midGrid N hN).zero = 0 := by
    show ((Periodic.waves N 1 (midGrid N hN).zero : ℤ) : ℝ) = 0
    rw [mid_waves]; simp
  have := (C76_limit q n (W := chebWall q n) (T := Periodic.rspace N N) c rfl (by norm_num [c]) one_pos 8000 (by norm_num) rfl h1 h2 (mid_flat N hN) kind rfl
    la hla start start_laminar 0).1
  refine this.trans (le_of_eq ?_)
  congr 1
  norm_num [c]

end Instance

end SpectralDNS.Galerkin

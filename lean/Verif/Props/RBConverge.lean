import Verif.Lemmas.RBOde
import Verif.Props.RBGrowth

/-!
# C100: convergence of the Rayleigh-Benard solvers in the time step
-/

namespace SpectralDNS.Channel

open Spec.Channel Spec Set

variable {κ : Type*} [Fintype κ] [DecidableEq κ] {b d : ℕ}

/-- Every coefficient of velocity, vorticity and temperature is within `ε`; the boundary coefficients of the temperature agree. -/
def WithinRB (ε : ℝ) (U : Vel κ (Fin b → ℂ) (Fin d → ℂ)) (g : κ → Fin d → ℂ) (phi : Temp κ (Fin d → ℂ)) (U' : Vel κ (Fin b → ℂ) (Fin d → ℂ))
    (g' : κ → Fin d → ℂ) (phi' : Temp κ (Fin d → ℂ)) : Prop :=
  Within ε U g U' g' ∧ (∀ k, ‖phi.d k - phi'.d k‖ ≤ ε) ∧ phi.p = phi'.p ∧ phi.q = phi'.q

variable {r : RBCtx κ (Fin b → ℂ) (Fin d → ℂ)} {convT : Vel κ (Fin b → ℂ) (Fin d → ℂ) → Temp κ (Fin d → ℂ) → κ → Fin d → ℂ}

theorem nonlinRB_unknowns (hr : Regular r.c) (hz : ∀ k, r.c.G.Ksq k = 0 ↔ k = r.c.G.zero) {U : Vel κ (Fin b → ℂ) (Fin d → ℂ)} {g : κ → Fin d → ℂ}
    {phi : Temp κ (Fin d → ℂ)} (hU : Solenoidal r.c U g) (hp : phi.p = r.bcp) (hq : phi.q = r.bcq) :
    nonlinRB r convT (unknownsRB r U g phi) = (forceLin r.c (maskVec r.c.mask (r.c.conv U g)) + srcTerm r.c + normalForce r (buoyW r),
      fun k => -linv r.BDDR ((maskAt r.c.mask k : ℂ) • convT U phi k)) := by
  have e : temp r phi.d = phi := Temp.ext rfl hp.symm hq.symm
  simp only [nonlinRB, unknownsRB, nonlin_unknowns r.c hr hz hU, recon_unknowns r.c hr hz hU, e]

theorem forceRB_combine (hr : Regular r.c) (hz : ∀ k, r.c.G.Ksq k = 0 ↔ k = r.c.G.zero) {α β : ℝ} (hab : α + β = 1)
    {V W : Vel κ (Fin b → ℂ) (Fin d → ℂ)} {p p' : κ → Fin d → ℂ} {φ ψ : Temp κ (Fin d → ℂ)} (hV : Solenoidal r.c V p) (hW : Solenoidal r.c W p')
    (h1 : φ.p = r.bcp) (h2 : φ.q = r.bcq) (h3 : ψ.p = r.bcp) (h4 : ψ.q = r.bcq) :
    ((forceLin r.c (combine r.c.mask α β (r.c.conv V p) (r.c.conv W p')) + srcTerm r.c + normalForce r (buoyW r),
      fun k => -linv r.BDDR (combineT r.c.mask α β (convT V φ) (convT W ψ) k)) : RBUnknowns κ b d)
      = α • nonlinRB r convT (unknownsRB r V p φ) + β • nonlinRB r convT (unknownsRB r W p' ψ) := by
  rw [nonlinRB_unknowns hr hz hV h1 h2, nonlinRB_unknowns hr hz hW h3 h4, force_combine r.c α β hab]
  refine Prod.ext ?_ ?_
  · simp only [Prod.fst_add, Prod.smul_fst]
    generalize normalForce r (buoyW r) = w
    have : w = (α + β) • w := by rw [hab, one_smul]
    nth_rewrite 1 [this]
    module
  · funext k
    simp only [Prod.snd_add, Prod.smul_snd, Pi.add_apply, Pi.smul_apply, combineT, ← coe_smul_vec, map_add, map_smul]
    module

theorem split_of_boussinesq (hr : Regular r.c) (hR : Function.Bijective r.BDDR) (hz : ∀ k, r.c.G.Ksq k = 0 ↔ k = r.c.G.zero)
    {A B : RBUnknowns κ b d →L[ℝ] RBUnknowns κ b d} (hA : ∀ x, viscRB r x = A x) (hB : ∀ x, buoyRB r x = B x) {dt γ α β : ℝ} (hab : α + β = 1)
    {V V' W : Vel κ (Fin b → ℂ) (Fin d → ℂ)} {p p' o : κ → Fin d → ℂ} {φ φ' ψ : Temp κ (Fin d → ℂ)} (hV : Solenoidal r.c V p)
    (hV' : Solenoidal r.c V' p') (hW : Solenoidal r.c W o) (h1 : φ.p = r.bcp) (h2 : φ.q = r.bcq) (h3 : ψ.p = r.bcp) (h4 : ψ.q = r.bcq)
    (h : BoussinesqEq r (γ * dt) (combine r.c.mask α β (r.c.conv V p) (r.c.conv W o)) φ (combineT r.c.mask α β (convT V φ) (convT W ψ)) V p
      (V.v r.c.G.zero) (V.w r.c.G.zero) φ V' p' φ') :
    SplitStep A B (nonlinRB r convT) dt γ α β (unknownsRB r W o ψ) (unknownsRB r V p φ) (unknownsRB r V' p' φ') := by
  have := boussinesq_unknowns hr hR h1 h2 h hV.2.2 hV'.2.2
  rw [forceRB_combine hr hz hab hV hW h1 h2 h3 h4, hA, hB] at this
  exact this

theorem rb3_sub (hr : Regular r.c) (hR : Function.Bijective r.BDDR) (hz : ∀ k, r.c.G.Ksq k = 0 ↔ k = r.c.G.zero)
    {A B : RBUnknowns κ b d →L[ℝ] RBUnknowns κ b d} (hA : ∀ x, viscRB r x = A x) (hB : ∀ x, buoyRB r x = B x)
    (hnu : r.c.nu ≠ 0) (hk : r.kappa ≠ 0) (hAT : r.ADDT = r.ADDR) (hBT : r.BDDT = r.BDDR) (rd : RBCtx κ (Fin b → ℂ) (Fin d → ℂ)) {dt : ℝ}
    (hrd : rd = { r with c := { r.c with dt := dt } }) (hdt : dt ≠ 0)
    {la : Fin 3 → LA κ (Fin b → ℂ) (Fin d → ℂ)} {solveT : Fin 3 → κ → (Fin d → ℂ) → Fin d → ℂ} {rk : Fin 3}
    (hla : (la rk).Solves3 r.c.nu dt (rkA rk + rkB rk) r.c.G r.c.M) (hT : SolvesT rd (rkA rk + rkB rk) (solveT rk))
    {γ α β : ℝ} (hγ : rkA rk + rkB rk = γ) (hγ0 : γ ≠ 0) (hα : rkA rk / γ = α) (hβ : rkB rk / γ = β) (hab : α + β = 1)
    {s : RB3St κ (Fin b → ℂ) (Fin d → ℂ)} {W : Vel κ (Fin b → ℂ) (Fin d → ℂ)} {o : κ → Fin d → ℂ} {ψ : Temp κ (Fin d → ℂ)}
    (hst : rkB rk = 0 ∨ StoredRB rd (rd.c.conv W o) (convT W ψ) s) (hs : Solenoidal r.c s.s.U s.s.g) (hp : s.phi.p = r.bcp) (hq : s.phi.q = r.bcq)
    (hW : Solenoidal r.c W o) (h3 : ψ.p = r.bcp) (h4 : ψ.q = r.bcq) :
    let s' := substepRB rd convT la solveT rk s
    (Solenoidal r.c s'.s.U s'.s.g ∧ s'.phi.p = r.bcp ∧ s'.phi.q = r.bcq) ∧
      SplitStep A B (nonlinRB r convT) dt γ α β (unknownsRB r W o ψ) (unknownsRB r s.s.U s.s.g s.phi) (unknownsRB r s'.s.U s'.s.g s'.phi) := by
  subst hrd
  intro s'
  have hs' : Solenoidal r.c s'.s.U s'.s.g := C33_kmmrk3 { r.c with dt := dt } (la rk) hla.tdmaD hz _ _ _ _
  refine ⟨⟨hs', rfl, rfl⟩, ?_⟩
  have h := substepRB_eq { r with c := { r.c with dt := dt } } convT la solveT hnu hdt hk hAT hBT rk hla hT s γ hγ hγ0 _ _ hst
  rw [hα, hβ] at h
  exact split_of_boussinesq hr hR hz hA hB hab hs hs' hW hp hq h3 h4 ⟨h.1, h.2.1, h.2.2.1, h.2.2.2.1, h.2.2.2.2.1, h.2.2.2.2.2.1, h.2.2.2.2.2.2⟩

/-- A step of KMMRK3_RB in the unknowns. -/
theorem rb3_step (hr : Regular r.c) (hR : Function.Bijective r.BDDR) (hz : ∀ k, r.c.G.Ksq k = 0 ↔ k = r.c.G.zero)
    {A B : RBUnknowns κ b d →L[ℝ] RBUnknowns κ b d} (hA : ∀ x, viscRB r x = A x) (hB : ∀ x, buoyRB r x = B x)
    (hnu : r.c.nu ≠ 0) (hk : r.kappa ≠ 0) (hAT : r.ADDT = r.ADDR) (hBT : r.BDDT = r.BDDR) (rd : RBCtx κ (Fin b → ℂ) (Fin d → ℂ)) {dt : ℝ}
    (hrd : rd = { r with c := { r.c with dt := dt } }) (hdt : dt ≠ 0)
    {la : Fin 3 → LA κ (Fin b → ℂ) (Fin d → ℂ)} {solveT : Fin 3 → κ → (Fin d → ℂ) → Fin d → ℂ}
    (hla : ∀ rk, (la rk).Solves3 r.c.nu dt (rkA rk + rkB rk) r.c.G r.c.M)
    (hT : ∀ rk, SolvesT rd (rkA rk + rkB rk) (solveT rk)) {s : RB3St κ (Fin b → ℂ) (Fin d → ℂ)}
    (hs : Solenoidal r.c s.s.U s.s.g) (hp : s.phi.p = r.bcp) (hq : s.phi.q = r.bcq) :
    (Solenoidal r.c (integrateRB3 rd convT la solveT s).s.U (integrateRB3 rd convT la solveT s).s.g ∧
      (integrateRB3 rd convT la solveT s).phi.p = r.bcp ∧ (integrateRB3 rd convT la solveT s).phi.q = r.bcq) ∧
      SplitRK3 A B (nonlinRB r convT) dt (unknownsRB r s.s.U s.s.g s.phi)
        (unknownsRB r (integrateRB3 rd convT la solveT s).s.U (integrateRB3 rd convT la solveT s).s.g (integrateRB3 rd convT la solveT s).phi) := by
  have e : integrateRB3 rd convT la solveT s = substepRB rd convT la solveT 2 (substepRB rd convT la solveT 1 (substepRB rd convT la solveT 0 s)) := rfl
  rw [e]
  obtain ⟨g0, g1, g2, -⟩ := C35_fractions
  have b0 := rb3_sub (convT := convT) hr hR hz hA hB hnu hk hAT hBT rd hrd hdt (hla 0) (hT 0) g0 (by norm_num) (α := 1) (β := 0)
    (by show (8 / 15 : ℝ) / (8 / 15) = 1; norm_num) (by show (0 : ℝ) / (8 / 15) = 0; norm_num) (by norm_num) (Or.inl rfl) hs hp hq hs hp hq
  have t0 := substepRB_stored rd convT la solveT 0 s
  generalize substepRB rd convT la solveT 0 s = s1 at b0 t0 ⊢
  have b1 := rb3_sub (convT := convT) hr hR hz hA hB hnu hk hAT hBT rd hrd hdt (hla 1) (hT 1) g1 (by norm_num) (α := 25 / 8) (β := -17 / 8)
    (by show (5 / 12 : ℝ) / (2 / 15) = _; norm_num) (by show (-17 / 60 : ℝ) / (2 / 15) = _; norm_num) (by norm_num) (Or.inr t0)
    b0.1.1 b0.1.2.1 b0.1.2.2 hs hp hq
  have t1 := substepRB_stored rd convT la solveT 1 s1
  generalize substepRB rd convT la solveT 1 s1 = s2 at b1 t1 ⊢
  have b2 := rb3_sub (convT := convT) hr hR hz hA hB hnu hk hAT hBT rd hrd hdt (hla 2) (hT 2) g2 (by norm_num) (α := 9 / 4) (β := -5 / 4)
    (by show (3 / 4 : ℝ) / (1 / 3) = _; norm_num) (by show (-5 / 12 : ℝ) / (1 / 3) = _; norm_num) (by norm_num) (Or.inr t1)
    b1.1.1 b1.1.2.1 b1.1.2.2 b0.1.1 b0.1.2.1 b0.1.2.2
  exact ⟨b2.1, _, _, b0.2, b1.2, b2.2⟩

theorem within_unknownsRB (hr : Regular r.c) (hz : ∀ k, r.c.G.Ksq k = 0 ↔ k = r.c.G.zero) : ∃ K : ℝ, 1 ≤ K ∧
    ∀ (U : Vel κ (Fin b → ℂ) (Fin d → ℂ)) (g) (phi : Temp κ (Fin d → ℂ)) (U' : Vel κ (Fin b → ℂ) (Fin d → ℂ)) (g') (phi' : Temp κ (Fin d → ℂ)),
      Solenoidal r.c U g → Solenoidal r.c U' g' → phi.p = phi'.p → phi.q = phi'.q → ∀ ε,
      ‖unknownsRB r U g phi - unknownsRB r U' g' phi'‖ ≤ ε → WithinRB (K * ε) U g phi U' g' phi' := by
  obtain ⟨K, hK, H⟩ := within_of_unknowns r.c hr hz
  refine ⟨1 + K, by linarith, fun U g phi U' g' phi' hU hU' hp hq ε hε => ?_⟩
  have hε0 : 0 ≤ ε := (norm_nonneg _).trans hε
  have h1 : ‖unknowns r.c U g - unknowns r.c U' g'‖ ≤ ε := (norm_fst_le (unknownsRB r U g phi - unknownsRB r U' g' phi')).trans hε
  have h2 : ‖phi.d - phi'.d‖ ≤ ε := (norm_snd_le (unknownsRB r U g phi - unknownsRB r U' g' phi')).trans hε
  have hk : 0 ≤ K * ε := by positivity
  refine ⟨fun k => ?_, fun k => ?_, hp, hq⟩
  · obtain ⟨a, b, c, d⟩ := H U g U' g' hU hU' ε h1 k
    exact ⟨by linarith, by linarith, by linarith, by linarith⟩
  · have := norm_le_pi_norm (phi.d - phi'.d) k
    rw [Pi.sub_apply] at this
    linarith

omit [DecidableEq κ] in
theorem unknownsRB_within {U : Vel κ (Fin b → ℂ) (Fin d → ℂ)} {g} {phi : Temp κ (Fin d → ℂ)} {U' : Vel κ (Fin b → ℂ) (Fin d → ℂ)} {g'}
    {phi' : Temp κ (Fin d → ℂ)} {ε : ℝ} (h : WithinRB ε U g phi U' g' phi') : ‖unknownsRB r U g phi - unknownsRB r U' g' phi'‖ ≤ ε := by
  obtain ⟨h1, h2, -, -⟩ := h
  have hε : 0 ≤ ε := (norm_nonneg _).trans (h1 r.c.G.zero).1
  refine max_le (max_le ?_ (max_le ?_ (max_le ?_ ?_))) ?_
  · exact (pi_norm_le_iff_of_nonneg hε).2 fun k => (h1 k).1
  · exact (pi_norm_le_iff_of_nonneg hε).2 fun k => (h1 k).2.2.2
  · exact (h1 _).2.1
  · exact (h1 _).2.2.1
  · exact (pi_norm_le_iff_of_nonneg hε).2 h2

/-- The buoyancy of the solution does not change. -/
def SteadyBuoyancy (r : RBCtx κ (Fin b → ℂ) (Fin d → ℂ)) (T : ℝ) (phi : ℝ → Temp κ (Fin d → ℂ)) : Prop :=
  ∀ t ∈ Icc 0 T, ∀ k, k ≠ r.c.G.zero → buoyancy r (phi t) k = buoyancy r (phi 0) k

omit [Fintype κ] in
theorem steady_iff (hr : Regular r.c) {T : ℝ} (hT : 0 ≤ T) {U : ℝ → Vel κ (Fin b → ℂ) (Fin d → ℂ)} {g : ℝ → κ → Fin d → ℂ} {phi : ℝ → Temp κ (Fin d → ℂ)}
    (hw : ∀ t ∈ Icc 0 T, (phi t).p = r.bcp ∧ (phi t).q = r.bcq) :
    SteadyBuoyancy r T phi ↔ ∀ t ∈ Icc 0 T, buoyRB r (unknownsRB r (U t) (g t) (phi t)) = buoyRB r (unknownsRB r (U 0) (g 0) (phi 0)) := by
  have h0 : (0 : ℝ) ∈ Icc 0 T := ⟨le_rfl, hT⟩
  have e : ∀ t ∈ Icc 0 T, ∀ k, buoyancy r (phi t) k = buoyD r (phi t).d k + buoyW r k := fun t ht k => by
    rw [buoyancy_eq, (hw t ht).1, (hw t ht).2, forceT_add]; rfl
  refine forall₂_congr fun t ht => ⟨fun h => ?_, fun h k hk => ?_⟩
  · refine Prod.ext (Prod.ext (funext fun k => ?_) rfl) rfl
    by_cases hk : k = r.c.G.zero
    · simp [buoyRB, normalForce, hk]
    · have := h k hk
      rw [e t ht, e 0 h0] at this
      simp only [buoyRB, normalForce, if_neg hk, unknownsRB, add_right_cancel this]
  · have := congrFun (congrArg (fun x => x.1.1) h) k
    simp only [buoyRB, normalForce, if_neg hk, unknownsRB] at this
    have := congrArg (lap r.c.M.BBB r.c.M.ABB (r.c.G.Ksq k)) this
    rw [linv_right (hr.U k), linv_right (hr.U k)] at this
    rw [e t ht, e 0 h0, this]

/-! ### Any matrices and convection -/

section general

variable (hr : Regular r.c) (hR : Function.Bijective r.BDDR) (hz : ∀ k, r.c.G.Ksq k = 0 ↔ k = r.c.G.zero) (hc : QuadConv r.c) (hcT : QuadConvT r convT)
  (hnu : r.c.nu ≠ 0) (hk : r.kappa ≠ 0) (hAT : r.ADDT = r.ADDR) (hBT : r.BDDT = r.BDDR) {T : ℝ} (hT : 0 ≤ T)
  {U : ℝ → Vel κ (Fin b → ℂ) (Fin d → ℂ)} {g : ℝ → κ → Fin d → ℂ} {phi : ℝ → Temp κ (Fin d → ℂ)} (hU : SemiDiscreteRB r convT T U g phi)

/-- Runs of KMMRK3_RB with step `dt` that start on the solution. -/
def RunRB (r : RBCtx κ (Fin b → ℂ) (Fin d → ℂ)) (convT : Vel κ (Fin b → ℂ) (Fin d → ℂ) → Temp κ (Fin d → ℂ) → κ → Fin d → ℂ)
    (U : ℝ → Vel κ (Fin b → ℂ) (Fin d → ℂ)) (g : ℝ → κ → Fin d → ℂ) (phi : ℝ → Temp κ (Fin d → ℂ)) (dt : ℝ)
    (s : ℕ → RB3St κ (Fin b → ℂ) (Fin d → ℂ)) : Prop :=
  ∃ (la : Fin 3 → LA κ (Fin b → ℂ) (Fin d → ℂ)) (solveT : Fin 3 → κ → (Fin d → ℂ) → Fin d → ℂ),
    (∀ rk, (la rk).Solves3 r.c.nu dt (rkA rk + rkB rk) r.c.G r.c.M) ∧
    (∀ rk, SolvesT { r with c := { r.c with dt := dt } } (rkA rk + rkB rk) (solveT rk)) ∧
    (s 0).s.U = U 0 ∧ (s 0).s.g = g 0 ∧ (s 0).phi = phi 0 ∧
    ∀ n, s (n + 1) = integrateRB3 { r with c := { r.c with dt := dt } } convT la solveT (s n)

include hr hR hz hnu hk hAT hBT hT hU

theorem run_split {A B : RBUnknowns κ b d →L[ℝ] RBUnknowns κ b d} (hA : ∀ x, viscRB r x = A x) (hB : ∀ x, buoyRB r x = B x) {dt : ℝ} (hdt : dt ≠ 0)
    {s : ℕ → RB3St κ (Fin b → ℂ) (Fin d → ℂ)} (hs : RunRB r convT U g phi dt s) :
    (∀ n, Solenoidal r.c (s n).s.U (s n).s.g ∧ (s n).phi.p = r.bcp ∧ (s n).phi.q = r.bcq) ∧
    unknownsRB r (s 0).s.U (s 0).s.g (s 0).phi = unknownsRB r (U 0) (g 0) (phi 0) ∧
    ∀ n, SplitRK3 A B (nonlinRB r convT) dt (unknownsRB r (s n).s.U (s n).s.g (s n).phi)
      (unknownsRB r (s (n + 1)).s.U (s (n + 1)).s.g (s (n + 1)).phi) := by
  obtain ⟨la, solveT, hla, hsT, e1, e2, e3, hs⟩ := hs
  have h0 : (0 : ℝ) ∈ Icc 0 T := ⟨le_rfl, hT⟩
  have inv : ∀ n, Solenoidal r.c (s n).s.U (s n).s.g ∧ (s n).phi.p = r.bcp ∧ (s n).phi.q = r.bcq := fun n => by
    induction n with
    | zero => rw [e1, e2, e3]; exact ⟨hU.sol 0 h0, hU.walls 0 h0⟩
    | succ n ih => rw [hs]; exact (rb3_step hr hR hz hA hB hnu hk hAT hBT _ rfl hdt hla hsT ih.1 ih.2.1 ih.2.2).1
  refine ⟨inv, by rw [e1, e2, e3], fun n => ?_⟩
  rw [hs]
  exact (rb3_step hr hR hz hA hB hnu hk hAT hBT _ rfl hdt hla hsT (inv n).1 (inv n).2.1 (inv n).2.2).2

include hc hcT

theorem rb3_first : ∃ C H0 : ℝ, 0 ≤ C ∧ 0 < H0 ∧ ∀ dt, 0 < dt → dt ≤ H0 → ∀ s, RunRB r convT U g phi dt s → ∀ n : ℕ, n * dt ≤ T →
    WithinRB (C * dt) (s n).s.U (s n).s.g (s n).phi (U (n * dt)) (g (n * dt)) (phi (n * dt)) := by
  obtain ⟨A, hA⟩ := viscRB_lin r
  obtain ⟨B, hB⟩ := buoyRB_lin r
  obtain ⟨K, hK, HK⟩ := within_unknownsRB hr hz
  have hy := hU.solves hr hR hz
  simp only [hA, hB] at hy
  have hG : QuadField fun u => nonlinRB r convT u + LinearMap.toContinuousLinearMap B u :=
    ((nonlinRB_quad r convT hc hcT).add (IsLin.quad ⟨B, fun _ => rfl⟩)).field
  obtain ⟨C, H0, hH0, H⟩ := split_first (LinearMap.toContinuousLinearMap A) (LinearMap.toContinuousLinearMap B) hG hT hy
  refine ⟨K * |C|, H0, by positivity, hH0, fun dt hdt hdt' s hs n hn => ?_⟩
  obtain ⟨inv, e0, st⟩ := run_split hr hR hz hnu hk hAT hBT hT hU (A := LinearMap.toContinuousLinearMap A) (B := LinearMap.toContinuousLinearMap B)
    hA hB hdt.ne' hs
  have hn0 : (n : ℝ) * dt ∈ Icc 0 T := ⟨by positivity, hn⟩
  have h := (H dt hdt.le hdt' (fun n => unknownsRB r (s n).s.U (s n).s.g (s n).phi) e0 st n hn).trans
    (mul_le_mul_of_nonneg_right (le_abs_self C) hdt.le)
  rw [mul_assoc]
  exact HK _ _ _ _ _ _ (inv n).1 (hU.sol _ hn0) ((inv n).2.1.trans (hU.walls _ hn0).1.symm) ((inv n).2.2.trans (hU.walls _ hn0).2.symm) _ h

theorem rb3_second (hst : SteadyBuoyancy r T phi) : ∃ C H0 : ℝ, 0 ≤ C ∧ 0 < H0 ∧ ∀ dt, 0 < dt → dt ≤ H0 → ∀ s, RunRB r convT U g phi dt s → ∀ n : ℕ, n * dt ≤ T →
    WithinRB (C * dt ^ 2) (s n).s.U (s n).s.g (s n).phi (U (n * dt)) (g (n * dt)) (phi (n * dt)) := by
  obtain ⟨A, hA⟩ := viscRB_lin r
  obtain ⟨B, hB⟩ := buoyRB_lin r
  obtain ⟨K, hK, HK⟩ := within_unknownsRB hr hz
  rw [steady_iff hr hT (U := U) (g := g) hU.walls] at hst
  have hy := hU.solves hr hR hz
  simp only [hA, hB] at hy hst
  have hG : QuadField fun u => nonlinRB r convT u + LinearMap.toContinuousLinearMap B u :=
    ((nonlinRB_quad r convT hc hcT).add (IsLin.quad ⟨B, fun _ => rfl⟩)).field
  obtain ⟨C, H0, hH0, H⟩ := split_second (LinearMap.toContinuousLinearMap A) (LinearMap.toContinuousLinearMap B) hG hT hy hst
  refine ⟨K * |C|, H0, by positivity, hH0, fun dt hdt hdt' s hs n hn => ?_⟩
  obtain ⟨inv, e0, st⟩ := run_split hr hR hz hnu hk hAT hBT hT hU (A := LinearMap.toContinuousLinearMap A) (B := LinearMap.toContinuousLinearMap B)
    hA hB hdt.ne' hs
  have hn0 : (n : ℝ) * dt ∈ Icc 0 T := ⟨by positivity, hn⟩
  have h := (H dt hdt.le hdt' (fun n => unknownsRB r (s n).s.U (s n).s.g (s n).phi) e0 st n hn).trans
    (mul_le_mul_of_nonneg_right (le_abs_self C) (by positivity))
  rw [mul_assoc]
  exact HK _ _ _ _ _ _ (inv n).1 (hU.sol _ hn0) ((inv n).2.1.trans (hU.walls _ hn0).1.symm) ((inv n).2.2.trans (hU.walls _ hn0).2.symm) _ h

theorem rb3_steady {C H0 : ℝ} (hH0 : 0 < H0) (H : ∀ dt, 0 < dt → dt ≤ H0 → ∃ s, RunRB r convT U g phi dt s ∧ ∀ n : ℕ, n * dt ≤ T →
    WithinRB (C * dt ^ 2) (s n).s.U (s n).s.g (s n).phi (U (n * dt)) (g (n * dt)) (phi (n * dt))) : SteadyBuoyancy r T phi := by
  obtain ⟨A, hA⟩ := viscRB_lin r
  obtain ⟨B, hB⟩ := buoyRB_lin r
  rw [steady_iff hr hT (U := U) (g := g) hU.walls]
  have hy := hU.solves hr hR hz
  simp only [hA, hB] at hy ⊢
  have hG : QuadField fun u => nonlinRB r convT u + LinearMap.toContinuousLinearMap B u :=
    ((nonlinRB_quad r convT hc hcT).add (IsLin.quad ⟨B, fun _ => rfl⟩)).field
  intro t ht
  refine split_steady (LinearMap.toContinuousLinearMap A) (LinearMap.toContinuousLinearMap B) hG hy hH0 (C := C) (fun dt hdt hdt' => ?_) ht
  obtain ⟨s, hs, hw⟩ := H dt hdt hdt'
  obtain ⟨inv, e0, st⟩ := run_split hr hR hz hnu hk hAT hBT hT hU (A := LinearMap.toContinuousLinearMap A) (B := LinearMap.toContinuousLinearMap B)
    hA hB hdt.ne' hs
  exact ⟨fun n => unknownsRB r (s n).s.U (s n).s.g (s n).phi, e0, fun n _ => st n, fun n hn => unknownsRB_within (hw n hn)⟩

end general

/-! ### The Chebyshev bases -/

section cheb

open Polynomial Periodic

variable {N M : Fin 2 → ℕ} {n : ℕ} {L : Fin 2 → ℝ} {hN : ∀ i, 0 < N i} {c : Ctx (RModes N) (Fin n → ℂ) (Fin (n + 2) → ℂ)} {kind : ConvKind}

section affine

variable {E : Type*} [AddCommGroup E] [Module ℝ E] {κ P : Type*} {T : Space κ P}

/-- A linear function plus a constant. -/
def IsAff {F : Type*} [AddCommGroup F] [Module ℝ F] (f : E → F) : Prop := ∃ (l : E → F) (a : F), IsLin l ∧ ∀ u, f u = l u + a

theorem IsAff.mul {f g : E → ℝ} (hf : IsLin f) (hg : IsAff g) : IsQuad fun u => f u * g u := by
  obtain ⟨l, a, hl, h⟩ := hg
  refine ((hf.mul hl).add (hf.comp (g := fun x => x * a) ⟨LinearMap.mulRight ℝ a, fun _ => rfl⟩).quad).congr fun u => ?_
  rw [h, mul_add]

theorem backward_aff (H : LinearSpace T) {f : E → κ → ℂ} (hf : ∀ k, IsAff fun u => f u k) (p : P) : IsAff fun u => T.backward (f u) p := by
  choose l a hl h using hf
  obtain ⟨A, hA⟩ := H.2
  refine ⟨fun u => T.backward (fun k => l k u) p, T.backward a p, H.back (f := fun u k => l k u) hl p, fun u => ?_⟩
  have : f u = (fun k => l k u) + a := funext fun k => h k u
  dsimp only
  rw [this, hA, map_add, ← hA, ← hA]; rfl

end affine

theorem quadConvT_standardRB (bc : ℝ × ℝ) (kappa : ℝ)
    (prodB : Temp (RModes N) (Fin (n + 2) → ℂ) → (RModes N → Fin n → ℂ) → RModes N → Fin n → ℂ)
    (prodD : Temp (RModes N) (Fin (n + 2) → ℂ) → (RModes N → Fin (n + 2) → ℂ) → RModes N → Fin (n + 2) → ℂ) (qT : Quad) :
    QuadConvT (chebRB bc .GC qT n c kappa prodB prodD) (standardRB .GC n (chebWall .GC n) (rspace N M) c.G) := by
  intro k
  have H : LinearSpace (rspace N M) := dft_linear (kernel (waves N) M) (rweight N)
  set W := chebWall .GC n with hW
  obtain ⟨h1, h2, h3⟩ := recon_lin c
  have hv := velocity_lin W (U := fun x : RBUnknowns (RModes N) n (n + 2) => recon c x.1) (fun k => IsLin.id.fst.comp (h1 k))
    (fun k => IsLin.id.fst.comp (h2 k)) (fun k => IsLin.id.fst.comp (h3 k)) H
  have hd : ∀ k, IsLin fun x : RBUnknowns (RModes N) n (n + 2) => x.2 k := fun k => IsLin.id.snd.apply k
  have hy : ∀ (K : RModes N → ℝ) q p, IsLin fun x : RBUnknowns (RModes N) n (n + 2) => bwdD W (rspace N M) (ik K x.2) q p :=
    fun K q p => synth_lin H W.fD W.x (f := fun x : RBUnknowns (RModes N) n (n + 2) => ik K x.2) (fun k => lin_smul (hd k) _) q p
  have hx : ∀ q p, IsAff fun x : RBUnknowns (RModes N) n (n + 2) => bwdC W (rspace N M) (fun k => dTdxHat .GC n (x.2 k)
      (if k = c.G.zero then (bc.1 : ℂ) else 0) (if k = c.G.zero then (bc.2 : ℂ) else 0)) q p := fun q p => by
    refine backward_aff H (fun k => ?_) p
    refine ⟨_, (W.fC (dTdxHat .GC n 0 (if k = c.G.zero then (bc.1 : ℂ) else 0) (if k = c.G.zero then (bc.2 : ℂ) else 0))).eval (W.x q : ℂ),
      (hd k).comp (g := fun v => (W.fC (matC (entry .GC (n + 4) (fun j : ℕ => Chebyshev.T ℝ (j : ℤ)) (fun j : ℕ => Chebyshev.T ℝ (j : ℤ)) 0 (n + 4) (n + 4))⁻¹
      (matC (entry .GC (n + 4) (fun j : ℕ => Chebyshev.T ℝ (j : ℤ)) phi 1 (n + 4) (n + 2)) v))).eval (W.x q : ℂ))
      ⟨((Polynomial.leval (W.x q : ℂ)) ∘ₗ W.fC ∘ₗ matC _ ∘ₗ matC _).restrictScalars ℝ, fun _ => rfl⟩, fun u => ?_⟩
    simp only [dTdxHat, map_add, eval_add, map_zero, zero_add, eval_zero]
  exact quad_comp (fwd_quad W H (f := fun x : RBUnknowns (RModes N) n (n + 2) => _) (fun q p =>
    ((IsAff.mul (hv 0 q p) (hx q p)).add ((hv 1 q p).mul (hy c.G.K1 q p))).add ((hv 2 q p).mul (hy c.G.K2 q p))) k) _

theorem quadConvT_divRB (bc : ℝ × ℝ) (kappa : ℝ) (qT : Quad) :
    QuadConvT (chebRB bc .GC qT n c kappa (prodBwall .GC n (rspace N M)) (prodDwall .GC n (rspace N M)))
      (divRB (chebRB bc .GC qT n c kappa (prodBwall .GC n (rspace N M)) (prodDwall .GC n (rspace N M)))) := by
  intro k
  have H : LinearSpace (rspace N M) := dft_linear (kernel (waves N) M) (rweight N)
  set W := chebWall .GC n with hW
  obtain ⟨h1, h2, h3⟩ := recon_lin c
  have hv := velocity_lin W (U := fun x : RBUnknowns (RModes N) n (n + 2) => recon c x.1) (fun k => IsLin.id.fst.comp (h1 k))
    (fun k => IsLin.id.fst.comp (h2 k)) (fun k => IsLin.id.fst.comp (h3 k)) H
  have hd : ∀ k, IsLin fun x : RBUnknowns (RModes N) n (n + 2) => x.2 k := fun k => IsLin.id.snd.apply k
  have hT : ∀ q p, IsAff fun x : RBUnknowns (RModes N) n (n + 2) => bwdT (rspace N M)
      (temp (chebRB bc .GC qT n c kappa (prodBwall .GC n (rspace N M)) (prodDwall .GC n (rspace N M))) x.2) q p := fun q p => by
    refine backward_aff H (fun k => ?_) p
    refine ⟨_, (tempPoly (0 : Fin (n + 2) → ℂ) (if k = c.G.zero then (bc.1 : ℂ) else 0) (if k = c.G.zero then (bc.2 : ℂ) else 0)).eval (W.x q : ℂ),
      (hd k).comp (g := fun v => (expandC phi v).eval (W.x q : ℂ))
      ⟨((Polynomial.leval (W.x q : ℂ)) ∘ₗ expandC phi).restrictScalars ℝ, fun _ => rfl⟩, fun u => ?_⟩
    simp only [tempPoly, temp, chebRB, hW, eval_add, map_zero, eval_zero, zero_add]
  have m : ∀ i q p, IsQuad fun x : RBUnknowns (RModes N) n (n + 2) => bwdT (rspace N M)
      (temp (chebRB bc .GC qT n c kappa (prodBwall .GC n (rspace N M)) (prodDwall .GC n (rspace N M))) x.2) q p * velocity W (rspace N M) (recon c x.1) i q p :=
    fun i q p => (IsAff.mul (hv i q p) (hT q p)).congr fun u => mul_comm _ _
  have hB : IsQuad fun x : RBUnknowns (RModes N) n (n + 2) => prodBwall .GC n (rspace N M)
      (temp (chebRB bc .GC qT n c kappa (prodBwall .GC n (rspace N M)) (prodDwall .GC n (rspace N M))) x.2) (recon c x.1).u k :=
    (IsQuad.pi fun q => H.forw (fun p => m 0 q p) k).lin (g := fun a => forwardWall .GC (n + 4) psi a) ⟨(forwardWall .GC (n + 4) psi).restrictScalars ℝ, fun _ => rfl⟩
  exact ((quad_comp hB _).add (quad_comp (quad_smul (fwd_quad W H (fun q p => m 1 q p) k) _) _)).add
    (quad_comp (quad_smul (fwd_quad W H (fun q p => m 2 q p) k) _) _)

/-- The velocities and temperatures represented by the coefficients differ by at most `ε` everywhere between the walls. -/
def FieldsWithinRB (L : Fin 2 → ℝ) (ε : ℝ) (U : Vel (RModes N) (Fin n → ℂ) (Fin (n + 2) → ℂ)) (phi : Temp (RModes N) (Fin (n + 2) → ℂ))
    (U' : Vel (RModes N) (Fin n → ℂ) (Fin (n + 2) → ℂ)) (phi' : Temp (RModes N) (Fin (n + 2) → ℂ)) : Prop :=
  FieldsWithin .GC L ε U U' ∧ ∀ x ∈ Icc (-1 : ℝ) 1, ∀ y z, |fieldT L phi x y z - fieldT L phi' x y z| ≤ ε

theorem within_fieldsRB (L : Fin 2 → ℝ) : ∃ K : ℝ, 1 ≤ K ∧ ∀ (U : Vel (RModes N) (Fin n → ℂ) (Fin (n + 2) → ℂ)) (g) (phi) (U') (g') (phi') (ε : ℝ), 0 ≤ ε →
    WithinRB ε U g phi U' g' phi' → WithinRB (K * ε) U g phi U' g' phi' ∧ FieldsWithinRB L (K * ε) U phi U' phi' := by
  obtain ⟨K1, hK1, H1⟩ := within_fields (N := N) (n := n) .GC L
  obtain ⟨K2, hK2, H2⟩ := fieldOf_bound (N := N) L (expandC phi (a := n + 2))
  refine ⟨K1 + K2, by linarith, fun U g phi U' g' phi' ε hε ⟨h1, h2, h3, h4⟩ => ?_⟩
  obtain ⟨a, b⟩ := H1 U g U' g' ε hε h1
  have e2 : 0 ≤ K2 * ε := by positivity
  have e1 : ε ≤ K1 * ε := le_mul_of_one_le_left hε hK1
  rw [add_mul]
  refine ⟨⟨fun k => ?_, fun k => (h2 k).trans (by linarith), h3, h4⟩, fun x hx y z => ?_, fun x hx y z => ?_⟩
  · obtain ⟨p1, p2, p3, p4⟩ := a k
    exact ⟨by linarith, by linarith, by linarith, by linarith⟩
  · obtain ⟨p1, p2, p3⟩ := b x hx y z
    exact ⟨by linarith, by linarith, by linarith⟩
  · have := H2 phi.d phi'.d ε h2 x hx y z
    have e : ∀ t : Temp (RModes N) (Fin (n + 2) → ℂ), fieldT L t x y z = fieldOf N L (fun k => expandC Channel.phi (t.d k)) x y z
        + fieldOf N L (fun k => Polynomial.C (1 / 2 * (t.p k + t.q k)) + Polynomial.C (1 / 2 * (t.p k - t.q k)) * X) x y z := fun t =>
      field_add _ _ _ _ _ x y z
    rw [e phi, e phi', h3, h4, add_sub_add_right_eq_sub]
    linarith

variable (S : ChebCtx .GC n M L hN c kind) {kappa : ℝ} (hkappa : 0 < kappa) (bc : ℝ × ℝ)
  {prodB : Temp (RModes N) (Fin (n + 2) → ℂ) → (RModes N → Fin n → ℂ) → RModes N → Fin n → ℂ}
  {prodD : Temp (RModes N) (Fin (n + 2) → ℂ) → (RModes N → Fin (n + 2) → ℂ) → RModes N → Fin (n + 2) → ℂ}
  {T : ℝ} {U : ℝ → Vel (RModes N) (Fin n → ℂ) (Fin (n + 2) → ℂ)} {g : ℝ → RModes N → Fin (n + 2) → ℂ} {phi : ℝ → Temp (RModes N) (Fin (n + 2) → ℂ)}

include S hkappa

/-- **C100 (KMMRK3_RB, first order).**  On an interval on which the equations have a solution, runs of KMMRK3_RB with small enough steps stay within `C dt` of it,
in every coefficient and at every point between the walls.  The second order which the convection and the Crank-Nicolson terms have is missing: the buoyancy
is taken from the start of each sub-step. -/
theorem C100_kmmrk3_rb_partial (hT : 0 ≤ T)
    (hU : SemiDiscreteRB (chebRB bc .GC .GC n c kappa prodB prodD) (standardRB .GC n (chebWall .GC n) (rspace N M) c.G) T U g phi) :
    ∃ C H0 : ℝ, 0 < H0 ∧ ∀ dt, 0 < dt → dt ≤ H0 → ∀ s,
      RunRB (chebRB bc .GC .GC n c kappa prodB prodD) (standardRB .GC n (chebWall .GC n) (rspace N M) c.G) U g phi dt s → ∀ m : ℕ, m * dt ≤ T →
      WithinRB (C * dt) (s m).s.U (s m).s.g (s m).phi (U (m * dt)) (g (m * dt)) (phi (m * dt)) ∧
      FieldsWithinRB L (C * dt) (s m).s.U (s m).phi (U (m * dt)) (phi (m * dt)) := by
  obtain ⟨K, hK, HK⟩ := within_fieldsRB (N := N) (n := n) L
  obtain ⟨C, H0, hC, hH0, H⟩ := rb3_first (r := chebRB bc .GC .GC n c kappa prodB prodD) S.regular (Galerkin.mass_bijective .GC n) S.only_mean S.quad
    (quadConvT_standardRB bc kappa prodB prodD .GC) S.visc.ne' hkappa.ne' rfl rfl hT hU
  refine ⟨K * C, H0, hH0, fun dt hdt hdt' s hs m hm => ?_⟩
  rw [mul_assoc]
  exact HK _ _ _ _ _ _ _ (by positivity) (H dt hdt hdt' s hs m hm)

/-- **C100 (KMMRK3_RB, second order).**  The order is two if the buoyancy does not change along the solution. -/
theorem C100_kmmrk3_rb_steady (hT : 0 ≤ T)
    (hU : SemiDiscreteRB (chebRB bc .GC .GC n c kappa prodB prodD) (standardRB .GC n (chebWall .GC n) (rspace N M) c.G) T U g phi)
    (hst : SteadyBuoyancy (chebRB bc .GC .GC n c kappa prodB prodD) T phi) :
    ∃ C H0 : ℝ, 0 < H0 ∧ ∀ dt, 0 < dt → dt ≤ H0 → ∀ s,
      RunRB (chebRB bc .GC .GC n c kappa prodB prodD) (standardRB .GC n (chebWall .GC n) (rspace N M) c.G) U g phi dt s → ∀ m : ℕ, m * dt ≤ T →
      WithinRB (C * dt ^ 2) (s m).s.U (s m).s.g (s m).phi (U (m * dt)) (g (m * dt)) (phi (m * dt)) ∧
      FieldsWithinRB L (C * dt ^ 2) (s m).s.U (s m).phi (U (m * dt)) (phi (m * dt)) := by
  obtain ⟨K, hK, HK⟩ := within_fieldsRB (N := N) (n := n) L
  obtain ⟨C, H0, hC, hH0, H⟩ := rb3_second (r := chebRB bc .GC .GC n c kappa prodB prodD) S.regular (Galerkin.mass_bijective .GC n) S.only_mean S.quad
    (quadConvT_standardRB bc kappa prodB prodD .GC) S.visc.ne' hkappa.ne' rfl rfl hT hU hst
  refine ⟨K * C, H0, hH0, fun dt hdt hdt' s hs m hm => ?_⟩
  rw [mul_assoc]
  exact HK _ _ _ _ _ _ _ (by positivity) (H dt hdt hdt' s hs m hm)

/-- The runs exist. -/
theorem runRB_exists {dt : ℝ} (hdt : 0 < dt) :
    ∃ s, RunRB (chebRB bc .GC .GC n c kappa prodB prodD) (standardRB .GC n (chebWall .GC n) (rspace N M) c.G) U g phi dt s := by
  choose la hla using fun rk => (Galerkin.C75_kmmrk3 .GC n c.G c.nu dt S.visc hdt rk).exists
  choose solveT hsT using fun rk => (Galerkin.C75_rb .GC n (chebRB bc .GC .GC n { c with dt := dt } kappa prodB prodD) rfl rfl hkappa hdt
    (rkA rk + rkB rk) (Or.inr ⟨rk, rfl⟩)).exists
  refine ⟨fun m => (integrateRB3 (chebRB bc .GC .GC n { c with dt := dt } kappa prodB prodD) (standardRB .GC n (chebWall .GC n) (rspace N M) c.G) la solveT)^[m]
    ⟨⟨U 0, g 0, ⟨0, 0, 0⟩, 0, 0, 0, 0⟩, phi 0, 0⟩, la, solveT, fun rk => ?_, hsT, rfl, rfl, rfl, fun m => Function.iterate_succ_apply' _ _ _⟩
  show (la rk).Solves3 c.nu dt _ c.G c.M
  rw [S.mats]; exact hla rk

/-- **C100 (KMMRK3_RB, only then).**  If the error is of second order, the buoyancy does not change along the solution. -/
theorem C100_kmmrk3_rb_only_steady (hT : 0 ≤ T)
    (hU : SemiDiscreteRB (chebRB bc .GC .GC n c kappa prodB prodD) (standardRB .GC n (chebWall .GC n) (rspace N M) c.G) T U g phi)
    {C H0 : ℝ} (hH0 : 0 < H0) (H : ∀ dt, 0 < dt → dt ≤ H0 → ∀ s,
      RunRB (chebRB bc .GC .GC n c kappa prodB prodD) (standardRB .GC n (chebWall .GC n) (rspace N M) c.G) U g phi dt s → ∀ m : ℕ, m * dt ≤ T →
      WithinRB (C * dt ^ 2) (s m).s.U (s m).s.g (s m).phi (U (m * dt)) (g (m * dt)) (phi (m * dt))) :
    SteadyBuoyancy (chebRB bc .GC .GC n c kappa prodB prodD) T phi :=
  rb3_steady (r := chebRB bc .GC .GC n c kappa prodB prodD) S.regular (Galerkin.mass_bijective .GC n) S.only_mean S.quad
    (quadConvT_standardRB bc kappa prodB prodD .GC) S.visc.ne' hkappa.ne' rfl rfl hT hU hH0 fun dt hdt hdt' =>
      let ⟨s, hs⟩ := runRB_exists S hkappa bc hdt
      ⟨s, hs, H dt hdt hdt' s hs⟩

omit hkappa in
theorem semiDiscreteRB_exists {qT : Quad} {convT : Vel (RModes N) (Fin n → ℂ) (Fin (n + 2) → ℂ) → Temp (RModes N) (Fin (n + 2) → ℂ) → RModes N → Fin (n + 2) → ℂ}
    (hq : QuadConvT (chebRB bc .GC qT n c kappa prodB prodD) convT) {U0 : Vel (RModes N) (Fin n → ℂ) (Fin (n + 2) → ℂ)} {g0 : RModes N → Fin (n + 2) → ℂ}
    (h0 : Solenoidal c U0 g0) (θ : RModes N → Fin (n + 2) → ℂ) : ∃ T : ℝ, 0 < T ∧ ∃ U g phi, U 0 = U0 ∧ g 0 = g0 ∧
      phi 0 = temp (chebRB bc .GC qT n c kappa prodB prodD) θ ∧ SemiDiscreteRB (chebRB bc .GC qT n c kappa prodB prodD) convT T U g phi := by
  set r := chebRB bc .GC qT n c kappa prodB prodD with hr
  obtain ⟨T, hT, y, hy0, hy⟩ := exists_local ((viscRB_lin r).quad.add ((nonlinRB_quad r convT S.quad hq).add (buoyRB_lin r).quad)).field
    ((unknowns c U0 g0, θ) : RBUnknowns (RModes N) n (n + 2))
  refine ⟨T, hT, _, _, _, ?_, ?_, ?_, semiDiscreteRB_of_solves S.regular (Galerkin.mass_bijective .GC n) S.only_mean hy⟩
  · rw [hy0]; exact recon_unknowns c S.regular S.only_mean h0
  · rw [hy0]; rfl
  · rw [hy0]

/-- **C100 (the solution).**  From every divergence free velocity and every temperature with the given wall values the equations of KMMRK3_RB have a solution on
some interval, and only one. -/
theorem C100_exists {U0 : Vel (RModes N) (Fin n → ℂ) (Fin (n + 2) → ℂ)} {g0 : RModes N → Fin (n + 2) → ℂ}
    (h0 : Solenoidal c U0 g0) (phi0 : Temp (RModes N) (Fin (n + 2) → ℂ)) (hbc : HasBC bc c.G.zero phi0) :
    let r := chebRB bc .GC .GC n c kappa prodB prodD
    let convT := standardRB .GC n (chebWall .GC n) (rspace N M) c.G
    (∃ T : ℝ, 0 < T ∧ ∃ U g phi, U 0 = U0 ∧ g 0 = g0 ∧ phi 0 = phi0 ∧ SemiDiscreteRB r convT T U g phi) ∧
    ∀ (T : ℝ) (U V : ℝ → Vel (RModes N) (Fin n → ℂ) (Fin (n + 2) → ℂ)) (g p : ℝ → RModes N → Fin (n + 2) → ℂ) (phi psi : ℝ → Temp (RModes N) (Fin (n + 2) → ℂ)),
      SemiDiscreteRB r convT T U g phi → SemiDiscreteRB r convT T V p psi → U 0 = U0 → V 0 = U0 → g 0 = g0 → p 0 = g0 → phi 0 = phi0 → psi 0 = phi0 →
      ∀ t ∈ Icc 0 T, U t = V t ∧ g t = p t ∧ phi t = psi t := by
  intro r convT
  have hq : QuadConvT r convT := quadConvT_standardRB bc kappa prodB prodD .GC
  have hp : phi0 = temp r phi0.d := by
    obtain ⟨b1, b2, b3, b4⟩ := hbc
    refine Temp.ext rfl (funext fun k => ?_) (funext fun k => ?_)
    · by_cases hk : k = c.G.zero
      · simp [temp, r, chebRB, hk, b1]
      · simp [temp, r, chebRB, hk, b2 k hk]
    · by_cases hk : k = c.G.zero
      · simp [temp, r, chebRB, hk, b3]
      · simp [temp, r, chebRB, hk, b4 k hk]
  constructor
  · rw [hp]; exact semiDiscreteRB_exists S bc hq h0 phi0.d
  · intro T U V g p phi psi hU hV e1 e2 e3 e4 e5 e6 t ht
    have h := (hU.solves S.regular (Galerkin.mass_bijective .GC n) S.only_mean).unique
      ((viscRB_lin r).quad.add ((nonlinRB_quad r convT S.quad hq).add (buoyRB_lin r).quad)).field
      (hV.solves S.regular (Galerkin.mass_bijective .GC n) S.only_mean) (by rw [e1, e2, e3, e4, e5, e6]) ht
    dsimp only at h
    have h1 : unknowns c (U t) (g t) = unknowns c (V t) (p t) := congrArg Prod.fst h
    refine ⟨?_, congrArg (fun x => x.1.2.1) h, Temp.ext (congrArg Prod.snd h) ?_ ?_⟩
    · rw [← recon_unknowns c S.regular S.only_mean (hU.sol t ht), ← recon_unknowns c S.regular S.only_mean (hV.sol t ht), h1]
    · rw [(hU.walls t ht).1, (hV.walls t ht).1]
    · rw [(hU.walls t ht).2, (hV.walls t ht).2]

omit S hkappa in
theorem bbd_first (hn : 0 < n) : (chebMats .GC n).BBD (Pi.single 0 1) ≠ 0 := by
  intro h
  have h := congrFun h (⟨0, hn⟩ : Fin n)
  have hT : ∀ i, i ≤ n + 3 → 0 < quadrature .GC (n + 4) (Chebyshev.T ℝ (i : ℤ) * Chebyshev.T ℝ (i : ℤ)) := fun i hi => by
    refine quad_sq_pos .GC (n + 4) (by omega) _ ?_ ?_
    · rw [Chebyshev.degree_T, Int.natAbs_natCast]; exact_mod_cast (by omega : i < n + 4)
    · intro h0
      have := Chebyshev.degree_T ℝ (i : ℤ)
      rw [h0] at this; simp at this
  have e : quadrature .GC (n + 4) (Channel.phi 0 * psi 0) = quadrature .GC (n + 4) (Chebyshev.T ℝ ((0 : ℕ) : ℤ) * Chebyshev.T ℝ ((0 : ℕ) : ℤ))
      + 4 / 3 * quadrature .GC (n + 4) (Chebyshev.T ℝ ((2 : ℕ) : ℤ) * Chebyshev.T ℝ ((2 : ℕ) : ℤ)) := by
    have q := fun i j (hi : i ≤ n + 3) (hj : j ≤ n + 3) (hij : i ≠ j) => (quad_TT .GC (n + 2) i j hi hj).trans (if_neg hij)
    rw [Channel.phi, psi, mul_add, mul_sub, mul_smul_comm, mul_smul_comm, sub_mul, sub_mul, sub_mul, map_add, map_sub, map_smul, map_smul, map_sub, map_sub,
      map_sub, q 0 (0 + 2) (by omega) (by omega) (by omega), q 0 (0 + 4) (by omega) (by omega) (by omega), q (0 + 2) 0 (by omega) (by omega) (by omega),
      q (0 + 2) (0 + 4) (by omega) (by omega) (by omega)]
    norm_num
  have h0 := hT 0 (by omega)
  have h2 := hT 2 (by omega)
  have : quadrature .GC (n + 4) (Channel.phi 0 * psi 0) = 0 := by
    simpa [chebMats, matC, entry, Matrix.toLin'_apply] using h
  rw [e] at this
  exact (add_pos h0 (mul_pos (by norm_num) h2)).ne' this

/-- **C100 is false for KMMRK3_RB.**  On every mesh with a wavenumber other than the mean one and at least one biharmonic function there is a temperature such that, starting with
the fluid at rest, the runs do not converge with second order. -/
theorem C100_kmmrk3_rb_false (hNM : ∀ i, N i ≤ M i) (hn : 0 < n) (k1 : RModes N) (hk1 : k1 ≠ c.G.zero) :
    let r := chebRB bc .GC .GC n c kappa prodB prodD
    let convT := standardRB .GC n (chebWall .GC n) (rspace N M) c.G
    ∃ (T : ℝ) (U : ℝ → _) (g : ℝ → _) (phi : ℝ → _), 0 < T ∧ SemiDiscreteRB r convT T U g phi ∧ U 0 = ⟨0, 0, 0⟩ ∧ g 0 = 0 ∧
      ¬∃ C H0 : ℝ, 0 < H0 ∧ ∀ dt, 0 < dt → dt ≤ H0 → ∀ s, RunRB r convT U g phi dt s → ∀ m : ℕ, m * dt ≤ T →
        WithinRB (C * dt ^ 2) (s m).s.U (s m).s.g (s m).phi (U (m * dt)) (g (m * dt)) (phi (m * dt)) := by
  intro r convT
  obtain ⟨θ, hθ⟩ := (Galerkin.dirichlet_bijective .GC n (c.G.Ksq k1) (add_nonneg (mul_self_nonneg _) (mul_self_nonneg _))).2
    (-(chebMats .GC n).BDD (Pi.single 0 1))
  have h0 : Solenoidal c (⟨0, 0, 0⟩ : Vel (RModes N) (Fin n → ℂ) (Fin (n + 2) → ℂ)) 0 :=
    ⟨fun k => by simp [Continuity], fun k _ => by simp [vorticity, Channel.curl], rfl⟩
  obtain ⟨T, hT, U, g, phi, e1, e2, e3, hU⟩ := semiDiscreteRB_exists (kappa := kappa) (prodB := prodB) (prodD := prodD) S bc
    (quadConvT_standardRB bc kappa prodB prodD .GC) h0 fun _ => θ
  refine ⟨T, U, g, phi, hT, hU, e1, e2, fun ⟨C, H0, hH0, H⟩ => ?_⟩
  have hst := C100_kmmrk3_rb_only_steady S hkappa bc hT.le hU hH0 H
  have z : (0 : ℝ) ∈ Icc 0 T := ⟨le_rfl, hT.le⟩
  obtain ⟨d', hd, e⟩ := hU.heat 0 z k1
  have hG : c.G.zero = (waveGrid N L hN).zero := by rw [S.grid]
  have hrest : standardRB .GC n (chebWall .GC n) (rspace N M) c.G (U 0) (phi 0) = 0 := by
    rw [e1]
    exact standardRB_rest .GC n (waveGrid_flat (L := L) hN hNM) c.G (phi 0)
  rw [hrest, e3] at e
  have hd' : d' = (kappa : ℂ) • Pi.single 0 1 := by
    refine (Galerkin.mass_bijective .GC n).1 (Eq.trans e ?_)
    rw [map_smul]
    have : lap (chebMats .GC n).BDD (chebMats .GC n).ADD (c.G.Ksq k1) θ = (chebMats .GC n).BDD (Pi.single 0 1) := by
      have h := hθ
      dsimp only at h
      rw [lap, LinearMap.sub_apply, LinearMap.smul_apply, ← neg_inj, ← h]
      abel
    rw [← this, Pi.zero_apply, smul_zero, sub_zero]; rfl
  -- the derivative of the buoyancy at time zero
  have hB : HasDerivWithinAt (fun t => c.M.BBD ((phi t).d k1)) (c.M.BBD d') (Icc 0 T) 0 :=
    (LinearMap.toContinuousLinearMap (c.M.BBD.restrictScalars ℝ)).hasFDerivAt.comp_hasDerivWithinAt (0 : ℝ) hd
  have hK : (c.G.Ksq k1 : ℂ) ≠ 0 := by exact_mod_cast fun h => hk1 ((S.only_mean k1).1 h)
  have hconst : ∀ t ∈ Icc 0 T, c.M.BBD ((phi t).d k1) = c.M.BBD ((phi 0).d k1) := fun t ht => by
    have := hst t ht k1 hk1
    simp only [buoyancy, (hU.walls t ht).1, (hU.walls t ht).2, (hU.walls 0 z).1, (hU.walls 0 z).2, sub_left_inj] at this
    exact smul_right_injective _ (neg_ne_zero.2 hK) this
  have hB' : HasDerivWithinAt (fun t => c.M.BBD ((phi t).d k1)) 0 (Icc 0 T) 0 :=
    (hasDerivWithinAt_const (0 : ℝ) (Icc 0 T) (c.M.BBD ((phi 0).d k1))).congr hconst rfl
  have := (uniqueDiffOn_Icc hT 0 z).eq_deriv _ hB hB'
  rw [hd', map_smul, S.mats] at this
  exact bbd_first hn ((smul_eq_zero.1 this).resolve_left (by exact_mod_cast hkappa.ne'))

omit S hkappa in
/-- **C100 is false for KMM_RB.**  Whatever the state and whatever the solution through its temperature: if the last Dirichlet coefficient of some wavenumber is not zero, then the
temperature after the first step does not tend to that of the solution as the time step goes to zero, because `TC` and `HelmholtzSolverT` have different mass matrices. -/
theorem C100_kmm_rb_false (hT : 0 < T) (hU : SemiDiscreteRB (chebRB bc .GC .GL n c kappa prodB prodD) (divRB (chebRB bc .GC .GL n c kappa prodB prodD)) T U g phi)
    (hkappa : 0 < kappa) (s0 : RBSt (RModes N) (Fin n → ℂ) (Fin (n + 2) → ℂ)) (h0 : s0.phi0 = phi 0) (k : RModes N) (hk : (phi 0).d k (Fin.last (n + 1)) ≠ 0) :
    ∃ ε H0 : ℝ, 0 < ε ∧ 0 < H0 ∧ ∀ dt, 0 < dt → dt ≤ H0 → ∀ la solveT, SolvesT (chebRB bc .GC .GL n { c with dt := dt } kappa prodB prodD) 1 solveT →
      ε ≤ ‖(tickRB (chebRB bc .GC .GL n { c with dt := dt } kappa prodB prodD) la solveT s0).phi.d k - (phi dt).d k‖ := by
  set x := (phi 0).d k with hx
  have hw : 0 < ‖(chebMats .GL n).BDD x - (chebMats .GC n).BDD x‖ := by
    rw [norm_pos_iff]
    intro h
    have h := congrFun h (Fin.last (n + 1))
    have e : (chebMats .GL n).BDD x - (chebMats .GC n).BDD x = matC ((Real.pi / 2) • Matrix.single (Fin.last (n + 1)) (Fin.last (n + 1)) 1) x := by
      show matC (entry .GL (n + 4) Channel.phi Channel.phi 0 (n + 2) (n + 2)) x - matC (entry .GC (n + 4) Channel.phi Channel.phi 0 (n + 2) (n + 2)) x = _
      rw [mass_quadratures, sub_eq_iff_eq_add]
      simp only [matC, Matrix.toLin'_apply]
      rw [← Matrix.add_mulVec]
      congr 1
      ext i j
      simp [add_comm]
    rw [e] at h
    simp only [matC, Matrix.toLin'_apply, Matrix.mulVec, dotProduct, Matrix.map_apply, Matrix.smul_apply, Matrix.single_apply] at h
    rw [Finset.sum_eq_single (Fin.last (n + 1)) (fun j _ hj => by simp [Ne.symm hj]) (by simp)] at h
    simp [Real.pi_ne_zero, hk] at h
  set w := ‖(chebMats .GL n).BDD x - (chebMats .GC n).BDD x‖ with hwd
  set B := LinearMap.toContinuousLinearMap (chebMats .GC n).BDD with hB
  set R := LinearMap.toContinuousLinearMap ((c.G.Ksq k : ℂ) • (chebMats .GC n).BDD - (chebMats .GC n).ADD) with hR
  set r := fun dt : ℝ => chebRB bc .GC .GL n { c with dt := dt } kappa prodB prodD with hr
  set F : Fin (n + 2) → ℂ := ((kappa / 2 : ℝ) : ℂ) • ((chebMats .GL n).ADD x - (c.G.Ksq k : ℂ) • (chebMats .GL n).BDD x)
    - maskT c.mask (divRB (r 0) (meanVel s0.s.U s0.s.U0) (phiAb s0.phi0 s0.phi1)) k with hF
  -- the solution is continuous
  obtain ⟨d', hd, -⟩ := hU.heat 0 ⟨le_rfl, hT.le⟩ k
  have hcont := hd.continuousWithinAt
  set e := w / (4 * (‖B‖ + 1)) with he
  have he0 : 0 < e := by positivity
  obtain ⟨δ, hδ, hcl⟩ := Metric.continuousWithinAt_iff.1 hcont e he0
  set Q := ‖F‖ + kappa / 2 * (‖R‖ * (‖x‖ + 2 * e)) with hQ
  have hQ0 : 0 ≤ Q := by positivity
  refine ⟨e, min (min (δ / 2) T) (w / (4 * (Q + 1))), he0, by positivity, fun dt hdt hle la solveT hsol => ?_⟩
  by_contra hlt
  push Not at hlt
  set y := (tickRB (r dt) la solveT s0).phi.d k with hy
  have h1 : ‖(phi dt).d k - x‖ < e := by
    have hdT : dt ≤ T := hle.trans ((min_le_left _ _).trans (min_le_right _ _))
    have hdd : dt ≤ δ / 2 := hle.trans ((min_le_left _ _).trans (min_le_left _ _))
    have := hcl (x := dt) ⟨hdt.le, hdT⟩ (by rw [Real.dist_eq, sub_zero, abs_of_pos hdt]; linarith)
    rwa [dist_eq_norm] at this
  have h2 : ‖y - x‖ < 2 * e := by
    have : y - x = (y - (phi dt).d k) + ((phi dt).d k - x) := by abel
    rw [this]
    refine (norm_add_le _ _).trans_lt ?_
    linarith
  have hx0 : s0.phi0.d k = x := by rw [h0]
  set V := maskT c.mask (divRB (r 0) (meanVel s0.s.U s0.s.U0) (phiAb s0.phi0 s0.phi1)) k with hV
  have eq : -(chebMats .GC n).ADD y + ((c.G.Ksq k + 2 / kappa / 1 / dt : ℝ) : ℂ) • (chebMats .GC n).BDD y =
      ((-2 / kappa : ℝ) : ℂ) • V + (((1 : ℝ) : ℂ) • (chebMats .GL n).ADD x + ((2 / kappa / dt - c.G.Ksq k : ℝ) : ℂ) • (chebMats .GL n).BDD x) := by
    rw [← hx0]
    exact hsol k _
  have key : (chebMats .GL n).BDD x - (chebMats .GC n).BDD x = B (y - x) + ((dt * (kappa / 2) : ℝ) : ℂ) • R y - ((dt : ℝ) : ℂ) • F := by
    have hkc : (kappa : ℂ) ≠ 0 := by exact_mod_cast hkappa.ne'
    have hdc : (dt : ℂ) ≠ 0 := by exact_mod_cast hdt.ne'
    have eq' := congrArg (fun v => ((dt * (kappa / 2) : ℝ) : ℂ) • v) eq
    have hRy : R y = (c.G.Ksq k : ℂ) • (chebMats .GC n).BDD y - (chebMats .GC n).ADD y := rfl
    have hBy : B (y - x) = (chebMats .GC n).BDD y - (chebMats .GC n).BDD x := map_sub (chebMats .GC n).BDD y x
    rw [hRy, hBy]
    simp only [hF] at eq' ⊢
    generalize (chebMats .GL n).BDD x = b1 at *
    generalize (chebMats .GL n).ADD x = b2 at *
    generalize (chebMats .GC n).BDD x = b3 at *
    generalize (chebMats .GC n).BDD y = b4 at *
    generalize (chebMats .GC n).ADD y = b5 at *
    generalize V = b6 at *
    simp only [smul_add, smul_neg, smul_smul, smul_sub] at eq' ⊢
    push_cast at eq' ⊢
    have c1 : (dt : ℂ) * (kappa / 2) * (2 / kappa / dt - c.G.Ksq k) = 1 - dt * (kappa / 2) * c.G.Ksq k := by field_simp
    have c2 : (dt : ℂ) * (kappa / 2) * (c.G.Ksq k + 2 / kappa / 1 / dt) = 1 + dt * (kappa / 2) * c.G.Ksq k := by field_simp; ring
    have c3 : (dt : ℂ) * (kappa / 2) * (-2 / kappa) = -dt := by field_simp
    rw [c1, c2, c3] at eq'
    rw [← sub_eq_zero] at eq' ⊢
    rw [← neg_eq_zero, ← eq']
    module
  have hn : w ≤ ‖B‖ * (2 * e) + dt * Q := by
    rw [hwd, key]
    have hy2 : ‖y‖ ≤ ‖x‖ + 2 * e := by
      have : y = x + (y - x) := by abel
      rw [this]; exact (norm_add_le _ _).trans (by linarith)
    refine (norm_sub_le _ _).trans ?_
    have a1 := norm_add_le (B (y - x)) (((dt * (kappa / 2) : ℝ) : ℂ) • R y)
    have a2 : ‖B (y - x)‖ ≤ ‖B‖ * (2 * e) := (B.le_opNorm _).trans (mul_le_mul_of_nonneg_left h2.le (norm_nonneg _))
    have a3 : ‖((dt * (kappa / 2) : ℝ) : ℂ) • R y‖ ≤ dt * (kappa / 2) * (‖R‖ * (‖x‖ + 2 * e)) := by
      rw [norm_smul, Complex.norm_real, Real.norm_of_nonneg (by positivity)]
      exact mul_le_mul_of_nonneg_left ((R.le_opNorm _).trans (mul_le_mul_of_nonneg_left hy2 (norm_nonneg _))) (by positivity)
    have a4 : ‖((dt : ℝ) : ℂ) • F‖ = dt * ‖F‖ := by
      rw [norm_smul, Complex.norm_real, Real.norm_of_nonneg hdt.le]
    rw [a4, hQ]
    nlinarith [a1, a2, a3]
  have b1 : ‖B‖ * (2 * e) ≤ w / 2 := by
    have : ‖B‖ * (2 * e) ≤ (‖B‖ + 1) * (2 * e) := mul_le_mul_of_nonneg_right (by linarith) (by positivity)
    have h3 : (‖B‖ + 1) * (2 * e) = w / 2 := by
      have : ‖B‖ + 1 ≠ 0 := by positivity
      rw [he]; field_simp; ring
    linarith
  have b2 : dt * Q ≤ w / 4 := by
    have hd4 : dt ≤ w / (4 * (Q + 1)) := hle.trans (min_le_right _ _)
    have : dt * Q ≤ w / (4 * (Q + 1)) * (Q + 1) := mul_le_mul hd4 (by linarith) hQ0 (by positivity)
    have h3 : w / (4 * (Q + 1)) * (Q + 1) = w / 4 := by
      have : Q + 1 ≠ 0 := by positivity
      field_simp
    linarith
  linarith

/-- Convection between plates at temperatures `1` and `0` on a mesh with `7 × 8 × 8` points and the 3/2-rule: solutions from any flow along the plates and any temperature exist for the
equations of both solvers, and so do the runs. -/
example (P θ : RModes ![8, 8] → Fin 5 → ℂ) (v w : Fin 5 → ℂ) : ∃ (c : Ctx (RModes ![8, 8]) (Fin 3 → ℂ) (Fin 5 → ℂ)) (hN : ∀ i : Fin 2, 0 < (![8, 8] : Fin 2 → ℕ) i),
    let prodB := prodBwall .GC 3 (rspace ![8, 8] ![12, 12])
    let prodD := prodDwall .GC 3 (rspace ![8, 8] ![12, 12])
    let r := chebRB (1, 0) .GC .GC 3 c (1 / 50) prodB prodD
    let r' := chebRB (1, 0) .GC .GL 3 c (1 / 50) prodB prodD
    let convT := standardRB .GC 3 (chebWall .GC 3) (rspace ![8, 8] ![12, 12]) c.G
    ChebCtx .GC 3 ![12, 12] ![1, 2] hN c .vortex ∧ (∃ k1, k1 ≠ c.G.zero) ∧
    (∃ T U g phi, 0 < T ∧ SemiDiscreteRB r convT T U g phi ∧ U 0 = streamFlow c.G P v w ∧ (phi 0).d = θ ∧ ∀ dt, 0 < dt → ∃ s, RunRB r convT U g phi dt s) ∧
    ∃ T U g phi, 0 < T ∧ SemiDiscreteRB r' (divRB r') T U g phi ∧ U 0 = streamFlow c.G P v w ∧ (phi 0).d = θ ∧
      ∀ dt, 0 < dt → ∃ solveT, SolvesT (chebRB (1, 0) .GC .GL 3 { c with dt := dt } (1 / 50) prodB prodD) 1 solveT := by
  have hN : ∀ i : Fin 2, 0 < (![8, 8] : Fin 2 → ℕ) i := fun i => by fin_cases i <;> norm_num
  let c : Ctx (RModes ![8, 8]) (Fin 3 → ℂ) (Fin 5 → ℂ) :=
    { nu := 1 / 100, dt := 1 / 10, G := waveGrid ![8, 8] ![1, 2] hN, M := chebMats .GC 3, mask := none,
      conv := convection .vortex (chebWall .GC 3) (rspace ![8, 8] ![12, 12]) (waveGrid ![8, 8] ![1, 2] hN), Sk := 0 }
  have S : ChebCtx .GC 3 ![12, 12] ![1, 2] hN c .vortex := ⟨fun i => by fin_cases i <;> norm_num, rfl, rfl, by norm_num [c], rfl⟩
  have h0 := streamFlow_solenoidal c S.only_mean P v w
  refine ⟨c, hN, S, ?_, ?_, ?_⟩
  · have : Nontrivial (RModes ![8, 8]) := Fintype.one_lt_card_iff_nontrivial.1 (by simp only [Fintype.card_pi, Fin.prod_univ_two, Fintype.card_fin]; decide)
    exact exists_ne _
  · obtain ⟨T, hT, U, g, phi, e1, -, e3, h⟩ := semiDiscreteRB_exists (kappa := 1 / 50) S (1, 0) (quadConvT_standardRB (1, 0) (1 / 50)
      (prodBwall .GC 3 (rspace ![8, 8] ![12, 12])) (prodDwall .GC 3 (rspace ![8, 8] ![12, 12])) .GC) h0 θ
    exact ⟨T, U, g, phi, hT, h, e1, by rw [e3]; rfl, fun dt hdt => runRB_exists S (by norm_num) (1, 0) hdt⟩
  · obtain ⟨T, hT, U, g, phi, e1, -, e3, h⟩ := semiDiscreteRB_exists (kappa := 1 / 50) S (1, 0) (quadConvT_divRB (M := ![12, 12]) (1, 0) (1 / 50) .GL) h0 θ
    exact ⟨T, U, g, phi, hT, h, e1, by rw [e3]; rfl, fun dt hdt => (Galerkin.C75_rb .GC 3 _ rfl rfl (by norm_num [chebRB]) hdt 1 (Or.inl rfl)).exists⟩

end cheb

end SpectralDNS.Channel

import Verif.Lemmas.CoupledBq
import Verif.Lemmas.InvariantODE
import Verif.Props.SpectralAccuracy

/-!
# C110: the computed fields of MHD and Bq2D converge to the solutions of their equations

The padded solvers MHD and Bq2D on any mesh in any box, against smooth solutions of the equations of magnetohydrodynamics and of Boussinesq flow.
-/

namespace SpectralDNS.Torus

open Complex Spec Periodic Dealias MeasureTheory
open scoped ContDiff

/-! ## Solutions stay real, solenoidal and unmasked -/

/-- Coefficients of real solenoidal vectors without the masked modes. -/
noncomputable def realAdmissible {n : ℕ} (N : Fin (n + 1) → ℕ) (L : Fin (n + 1) → ℝ) : Submodule ℝ (SArr (n + 1) (RModes N)) :=
  admissible (scaledWaves N L) (some (nyquistMask N)) ⊓ hermitian (NegMode N)

theorem mem_realAdmissible {n : ℕ} {N : Fin (n + 1) → ℕ} {L : Fin (n + 1) → ℝ} {u : SArr (n + 1) (RModes N)} :
    u ∈ realAdmissible N L ↔ Solenoidal (scaledWaves N L) u ∧ (∀ i, Unmasked N (u i)) ∧ ∀ i, IsReal N (u i) :=
  ⟨fun h => ⟨(mem_admissible.1 h.1).1, (mem_admissible.1 h.1).2, fun i k k' hk => h.2 k k' hk i⟩,
    fun h => ⟨mem_admissible.2 ⟨h.1, h.2.1⟩, fun k k' hk i => h.2.2 i k k' hk⟩⟩

theorem pad_mask_sym {n : ℕ} (N : Fin (n + 1) → ℕ) (L : Fin (n + 1) → ℝ) (nu : ℝ) (S : SArr (n + 1) (RModes N)) :
    ∀ m, (padCtx N L nu S).mask = some m → ∀ k k', NegMode N k k' → m k' = m k := fun m hm k k' hR => by
  obtain rfl := Option.some.inj hm
  exact neg_mask N k k' hR

theorem mhd_pad_stays {L : Fin 3 → ℝ} (N : Fin 3 → ℕ) (hL : ∀ i, 0 < L i) (nu eta : ℝ) (rhs : SArr 3 (RModes N) × SArr 3 (RModes N)) {T : ℝ}
    (U : ℝ → SArr 3 (RModes N) × SArr 3 (RModes N))
    (hU : SolvesOn (rhsMHD (padCtx N L nu 0) eta (fun _ ub => convMHD ub (padCtx N L nu 0).Tp (padCtx N L nu 0).K) rhs) T U)
    (h1 : (U 0).1 ∈ realAdmissible N L) (h2 : (U 0).2 ∈ realAdmissible N L) :
    ∀ t ∈ Set.Icc 0 T, (U t).1 ∈ realAdmissible N L ∧ (U t).2 ∈ realAdmissible N L := by
  set c := padCtx N L nu 0 with hc
  have H : LinearSpace c.Tp := rspace_linear N _
  refine solves_stays (rhsMHD_quad c H eta rhs) ((realAdmissible N L).prod (realAdmissible N L)) (fun ub hub => ?_) hU ⟨h1, h2⟩
  obtain ⟨a1, a2⟩ := mem_admissible.1 hub.1.1
  obtain ⟨b1, b2⟩ := mem_admissible.1 hub.2.1
  have hh : rhsMHD c eta (fun _ ub => convMHD ub c.Tp c.K) rhs ub ∈ hermitian2 (NegMode N) := by
    have h3 := C15_MHD c eta (pad_realModes N L hL nu 0) (pad_mask_sym N L nu 0) (fun _ _ _ => .fin 0) 1 .ForwardEuler [1] 0 rhs ub hub.1.2 hub.2.2
      _ rfl
    have h4 : (ub + rhsMHD c eta (fun _ ub => convMHD ub c.Tp c.K) rhs ub) ∈ hermitian2 (NegMode N) := by
      simp only [getintegrator, ForwardEuler, one_smul] at h3
      exact h3
    have h5 := (hermitian2 (NegMode N)).sub_mem h4 (⟨hub.1.2, hub.2.2⟩ : ub ∈ hermitian2 (NegMode N))
    rwa [add_sub_cancel_left] at h5
  have ha : (rhsMHD c eta (fun _ ub => convMHD ub c.Tp c.K) rhs ub).1 ∈ admissible c.K c.mask ∧
      (rhsMHD c eta (fun _ ub => convMHD ub c.Tp c.K) rhs ub).2 ∈ admissible c.K c.mask := by
    refine ⟨mem_admissible.2 ⟨fun k => ?_, fun i k hk => ?_⟩, mem_admissible.2 ⟨fun k => ?_, fun i k hk => ?_⟩⟩
    · rw [C11_velocity_rhs_divergence]
      exact mul_eq_zero_of_right _ (a1 k)
    · have := a2 i k hk
      simp [rhsMHD, add_pressure_diffusionMHD, maskNyquist_keeps, hk, this]
    · refine (C11_magnetic_rhs_divergence c eta (fun ub i j => c.Tp.forward fun x =>
        (c.Tp.backward (ub.1 i) x + c.Tp.backward (ub.2 i) x) * (c.Tp.backward (ub.1 j) x - c.Tp.backward (ub.2 j) x)) rhs ub k).trans ?_
      exact mul_eq_zero_of_right _ (b1 k)
    · have := b2 i k hk
      simp [rhsMHD, add_pressure_diffusionMHD, maskNyquist_keeps, hk, this]
  exact ⟨⟨ha.1, hh.1⟩, ⟨ha.2, hh.2⟩⟩

theorem bq_pad_stays {L : Fin 2 → ℝ} (N : Fin 2 → ℕ) (hL : ∀ i, 0 < L i) (nu Ri Pr : ℝ) (w0 : SArr 2 (RModes N))
    (rhs : SArr 2 (RModes N) × (RModes N → ℂ)) {T : ℝ} (U : ℝ → SArr 2 (RModes N) × (RModes N → ℂ))
    (hU : SolvesOn (rhsBq (padCtx N L nu 0) Ri Pr (fun r ur => convBq w0 r ur (padCtx N L nu 0).Tp (padCtx N L nu 0).K) rhs) T U)
    (h1 : (U 0).1 ∈ realAdmissible N L) (h2 : Unmasked N (U 0).2) (h3 : IsReal N (U 0).2) :
    ∀ t ∈ Set.Icc 0 T, (U t).1 ∈ realAdmissible N L ∧ Unmasked N (U t).2 ∧ IsReal N (U t).2 := by
  set c := padCtx N L nu 0 with hc
  have H : LinearSpace c.Tp := rspace_linear N _
  set f := rhsBq c Ri Pr (fun r ur => convBq w0 r ur c.Tp c.K) rhs with hf
  let S2 : Submodule ℝ (RModes N → ℂ) :=
    { carrier := {q | Unmasked N q ∧ IsReal N q}
      add_mem' := fun {a b} ha hb => ⟨fun k hk => by simp [ha.1 k hk, hb.1 k hk], fun k k' h => by simp [ha.2 k k' h, hb.2 k k' h]⟩
      zero_mem' := ⟨fun k _ => rfl, fun k k' _ => by simp⟩
      smul_mem' := fun r a ha => ⟨fun k hk => by simp [ha.1 k hk], fun k k' h => by simp [ha.2 k k' h]⟩ }
  have key := solves_stays (rhsBq_quad c H Ri Pr w0 rhs) ((realAdmissible N L).prod S2) (fun ur hur => ?_) hU ⟨h1, h2, h3⟩
  · exact fun t ht => ⟨(key t ht).1, (key t ht).2.1, (key t ht).2.2⟩
  obtain ⟨a1, a2⟩ := mem_admissible.1 hur.1.1
  have a3 : Unmasked N ur.2 := hur.2.1
  have hr : Hermitian (d := 1) (NegMode N) fun _ => ur.2 := fun k k' h _ => hur.2.2 k k' h
  have h4 := C15_Bq2D c Ri Pr (pad_realModes N L hL nu 0) (pad_mask_sym N L nu 0) w0 (fun _ _ _ => .fin 0) 1 .ForwardEuler [1] 0 rhs ur hur.1.2 hr
    (fun k hk => ⟨fun i => a2 i k hk, a3 k hk⟩) _ rfl
  simp only [getintegrator, ForwardEuler, one_smul] at h4
  rw [← hf] at h4
  have e1 : (f ur).1 ∈ hermitian (NegMode N) := by
    have := (hermitian (NegMode N)).sub_mem h4.1 hur.1.2
    rwa [Prod.fst_add, add_sub_cancel_left] at this
  have e2 : IsReal N (f ur).2 := fun k k' h => by
    have e3 := h4.2 k k' h 0
    have e4 := hur.2.2 k k' h
    simp only [Prod.snd_add, Pi.add_apply, map_add, e4] at e3
    exact add_left_cancel e3
  have ha : (f ur).1 ∈ admissible c.K c.mask := by
    refine mem_admissible.2 ⟨fun k => ?_, fun i k hk => ?_⟩
    · rw [hf, C13_rhs_divergence]
      exact mul_eq_zero_of_right _ (a1 k)
    · have e3 := a2 i k hk
      have e4 := a3 k hk
      rw [hf, (C13_rhs c Ri Pr w0 rhs ur k).1 i, leray_eq]
      simp [hk, e3, e4]
  have hm : Unmasked N (f ur).2 := fun k hk => by
    have := a3 k hk
    have hk' : keeps c.mask k = false := hk
    rw [hf, (C13_rhs c Ri Pr w0 rhs ur k).2]
    simp [hk', this]
  exact ⟨⟨ha, e1⟩, hm, e2⟩

/-! ## The semi-discrete equations -/

/-- C110, MHD.  A smooth solution of the equations of magnetohydrodynamics and any power `r` are given.  There is one constant such that on every mesh and
from every start the mean square error of the velocity and the magnetic field of the equations that the solver integrates is at most the constant times
(error of the start + `(1 + K^2)^-r`), `K` being the smallest of the largest wavenumbers of the mesh. -/
theorem C110_mhd {L : Fin 3 → ℝ} (hL : ∀ i, 0 < L i) {nu eta T : ℝ} (hnu : 0 ≤ nu) (heta : 0 ≤ eta) {u b : ℝ → Fin 3 → (Fin 3 → ℝ) → ℝ}
    {p : ℝ → (Fin 3 → ℝ) → ℝ} (h : ClassicalMHD L nu eta T u b p) (r : ℕ) :
    ∃ C, 0 ≤ C ∧ ∀ (N : Fin 3 → ℕ), (∀ i, 0 < N i) → ∀ K : ℝ, 0 ≤ K → (∀ i, K ≤ Real.pi * N i / L i) →
      ∀ (rhs : SArr 3 (RModes N) × SArr 3 (RModes N)) (U : ℝ → SArr 3 (RModes N) × SArr 3 (RModes N)),
        SolvesOn (rhsMHD (padCtx N L nu 0) eta (fun _ ub => convMHD ub (padCtx N L nu 0).Tp (padCtx N L nu 0).K) rhs) T U →
        (Solenoidal (scaledWaves N L) (U 0).1 ∧ (∀ i, Unmasked N ((U 0).1 i)) ∧ ∀ i, IsReal N ((U 0).1 i)) →
        (Solenoidal (scaledWaves N L) (U 0).2 ∧ (∀ i, Unmasked N ((U 0).2 i)) ∧ ∀ i, IsReal N ((U 0).2 i)) →
      ∀ t ∈ Set.Icc 0 T, boxMean L (fun x => ∑ i, (u t i x - fn N L ((U t).1 i) x) ^ 2) + boxMean L (fun x => ∑ i, (b t i x - fn N L ((U t).2 i) x) ^ 2) ≤
        C * (boxMean L (fun x => ∑ i, (u 0 i x - fn N L ((U 0).1 i) x) ^ 2) + boxMean L (fun x => ∑ i, (b 0 i x - fn N L ((U 0).2 i) x) ^ 2) +
          1 / (1 + K ^ 2) ^ r) := by
  obtain ⟨C, hC, H⟩ := mhd_error hL hnu heta h r
  refine ⟨C, hC, fun N hN K hK hKN rhs U hU h1 h2 => ?_⟩
  have hst := mhd_pad_stays N hL nu eta rhs U hU (mem_realAdmissible.2 h1) (mem_realAdmissible.2 h2)
  set c := padCtx N L nu 0 with hc
  set f := rhsMHD c eta (fun _ ub => convMHD ub c.Tp c.K) rhs with hf
  have hd : ∀ t ∈ Set.Icc 0 T, HasDerivWithinAt (fun s => (U s).1) (f (U t)).1 (Set.Icc 0 T) t ∧
      HasDerivWithinAt (fun s => (U s).2) (f (U t)).2 (Set.Icc 0 T) t := fun t ht =>
    ⟨(ContinuousLinearMap.fst ℝ (SArr 3 (RModes N)) (SArr 3 (RModes N))).hasFDerivAt.comp_hasDerivWithinAt t (hU t ht),
      (ContinuousLinearMap.snd ℝ (SArr 3 (RModes N)) (SArr 3 (RModes N))).hasFDerivAt.comp_hasDerivWithinAt t (hU t ht)⟩
  have a1 := fun t ht => mem_realAdmissible.1 (hst t ht).1
  have a2 := fun t ht => mem_realAdmissible.1 (hst t ht).2
  have m1 : ∀ t ∈ Set.Icc 0 T, ∀ i, Unmasked N ((f (U t)).1 i) := fun t ht i k hk => by
    have := (a1 t ht).2.1 i k hk
    simp [f, rhsMHD, add_pressure_diffusionMHD, maskNyquist, c, padCtx, hk, this]
  have m2 : ∀ t ∈ Set.Icc 0 T, ∀ i, Unmasked N ((f (U t)).2 i) := fun t ht i k hk => by
    have := (a2 t ht).2.1 i k hk
    simp [f, rhsMHD, add_pressure_diffusionMHD, maskNyquist, c, padCtx, hk, this]
  refine H N hN K hK hKN (fun t => (U t).1) (fun t => (f (U t)).1) (fun t => (U t).2) (fun t => (f (U t)).2)
    (fun t ht i k => hasDerivWithinAt_pi.1 (hasDerivWithinAt_pi.1 (hd t ht).1 i) k)
    (fun t ht i k => hasDerivWithinAt_pi.1 (hasDerivWithinAt_pi.1 (hd t ht).2 i) k) a1 a2 (fun t ht => ?_) fun t ht v hv hvr => ?_
  · obtain ⟨P, h3⟩ := (C83_mhd N L hN hL nu eta rhs (U t) (a1 t ht).1 (a2 t ht).1 (a1 t ht).2.1 (a2 t ht).2.1).1
    refine ⟨P, fun v hv hvr => ?_⟩
    rw [← h3 v hv hvr, mean_power N L hN hL _ v (m1 t ht) hv hvr]
  · have h3 := (C83_mhd N L hN hL nu eta rhs (U t) (a1 t ht).1 (a2 t ht).1 (a1 t ht).2.1 (a2 t ht).2.1).2 v hv hvr
    rw [← h3, mean_power N L hN hL _ v (m2 t ht) hv hvr]

/-- C110, Bq2D. -/
theorem C110_bq {L : Fin 2 → ℝ} (hL : ∀ i, 0 < L i) {nu Ri Pr T : ℝ} (hnu : 0 ≤ nu) (hka : 0 ≤ nu / Pr) {u : ℝ → Fin 2 → (Fin 2 → ℝ) → ℝ}
    {p rho : ℝ → (Fin 2 → ℝ) → ℝ} (h : ClassicalBq L nu Ri (nu / Pr) T u p rho) (r : ℕ) :
    ∃ C, 0 ≤ C ∧ ∀ (N : Fin 2 → ℕ), (∀ i, 0 < N i) → ∀ K : ℝ, 0 ≤ K → (∀ i, K ≤ Real.pi * N i / L i) →
      ∀ (w0 : SArr 2 (RModes N)) (rhs : SArr 2 (RModes N) × (RModes N → ℂ)) (U : ℝ → SArr 2 (RModes N) × (RModes N → ℂ)),
        SolvesOn (rhsBq (padCtx N L nu 0) Ri Pr (fun r ur => convBq w0 r ur (padCtx N L nu 0).Tp (padCtx N L nu 0).K) rhs) T U →
        (Solenoidal (scaledWaves N L) (U 0).1 ∧ (∀ i, Unmasked N ((U 0).1 i)) ∧ ∀ i, IsReal N ((U 0).1 i)) →
        Unmasked N (U 0).2 → IsReal N (U 0).2 →
      ∀ t ∈ Set.Icc 0 T, boxMean L (fun x => ∑ i, (u t i x - fn N L ((U t).1 i) x) ^ 2) + boxMean L (fun x => (rho t x - fn N L (U t).2 x) ^ 2) ≤
        C * (boxMean L (fun x => ∑ i, (u 0 i x - fn N L ((U 0).1 i) x) ^ 2) + boxMean L (fun x => (rho 0 x - fn N L (U 0).2 x) ^ 2) +
          1 / (1 + K ^ 2) ^ r) := by
  obtain ⟨C, hC, H⟩ := bq_error hL hnu hka h r
  refine ⟨C, hC, fun N hN K hK hKN w0 rhs U hU h1 h2 h3 => ?_⟩
  have hst := bq_pad_stays N hL nu Ri Pr w0 rhs U hU (mem_realAdmissible.2 h1) h2 h3
  set c := padCtx N L nu 0 with hc
  set f := rhsBq c Ri Pr (fun r ur => convBq w0 r ur c.Tp c.K) rhs with hf
  have hd : ∀ t ∈ Set.Icc 0 T, HasDerivWithinAt (fun s => (U s).1) (f (U t)).1 (Set.Icc 0 T) t ∧
      HasDerivWithinAt (fun s => (U s).2) (f (U t)).2 (Set.Icc 0 T) t := fun t ht =>
    ⟨(ContinuousLinearMap.fst ℝ (SArr 2 (RModes N)) (RModes N → ℂ)).hasFDerivAt.comp_hasDerivWithinAt t (hU t ht),
      (ContinuousLinearMap.snd ℝ (SArr 2 (RModes N)) (RModes N → ℂ)).hasFDerivAt.comp_hasDerivWithinAt t (hU t ht)⟩
  have a1 := fun t ht => mem_realAdmissible.1 (hst t ht).1
  have a2 := fun t ht => (hst t ht).2
  have m1 : ∀ t ∈ Set.Icc 0 T, ∀ i, Unmasked N ((f (U t)).1 i) := fun t ht i k hk => by
    have e1 := (a1 t ht).2.1 i k hk
    have e2 := (a2 t ht).1 k hk
    have hk' : keeps c.mask k = false := hk
    rw [hf, (C13_rhs c Ri Pr w0 rhs (U t) k).1 i, leray_eq]
    simp [hk', e1, e2]
  have m2 : ∀ t ∈ Set.Icc 0 T, Unmasked N (f (U t)).2 := fun t ht k hk => by
    have e2 := (a2 t ht).1 k hk
    have hk' : keeps c.mask k = false := hk
    rw [hf, (C13_rhs c Ri Pr w0 rhs (U t) k).2]
    simp [hk', e2]
  refine H N hN K hK hKN (fun t => (U t).1) (fun t => (f (U t)).1) (fun t => (U t).2) (fun t => (f (U t)).2)
    (fun t ht i k => hasDerivWithinAt_pi.1 (hasDerivWithinAt_pi.1 (hd t ht).1 i) k)
    (fun t ht k => hasDerivWithinAt_pi.1 (hd t ht).2 k) a1 a2 (fun t ht => ?_) fun t ht q hq hqr => ?_
  · obtain ⟨P, h3⟩ := (C83_boussinesq N L hN hL nu Ri Pr w0 rhs (U t) (a1 t ht).1 (a1 t ht).2.1 (a2 t ht).1).1
    refine ⟨P, fun v hv hvr => ?_⟩
    rw [← h3 v hv hvr, mean_power N L hN hL _ v (m1 t ht) hv hvr]
  · have h3 := (C83_boussinesq N L hN hL nu Ri Pr w0 rhs (U t) (a1 t ht).1 (a1 t ht).2.1 (a2 t ht).1).2 q hq hqr
    rw [← h3, inner_symm]
    exact (mean_inner (n := 1) N hN L hL _ q (m2 t ht) hq hqr).symm

/-! ## The computed states -/

/-- Fields `pr V` of computed states `V` near states `U t` whose fields are near `u t`. -/
theorem follows_part {n : ℕ} {L : Fin (n + 1) → ℝ} (N : Fin (n + 1) → ℕ) (hL : ∀ i, 0 < L i) {S κ : Type*} [NormedAddCommGroup S] [Fintype κ]
    (pr : S → κ → RModes N → ℂ) (hpr : ∀ V W i k, ‖pr V i k - pr W i k‖ ≤ ‖V - W‖) {u : ℝ → κ → (Fin (n + 1) → ℝ) → ℝ} (hu : ∀ t i, Continuous (u t i))
    {U : ℝ → S} {T b e : ℝ} (hb : ∀ t ∈ Set.Icc 0 T, boxMean L (fun x => ∑ i, (u t i x - fn N L (pr (U t) i) x) ^ 2) ≤ b) :
    ∀ (outs : List (S × ℝ × ℝ)) (t : ℝ), 0 ≤ t → (∀ o ∈ outs, 0 ≤ o.2.2) → t + (outs.map fun o => o.2.2).sum ≤ T →
      Within U e t outs → FollowsFlow L (fun V i => fn N L (pr V i)) u (2 * b + 2 * (Fintype.card κ : ℝ) * ((Fintype.card (RModes N) : ℝ) * (2 * e)) ^ 2) t outs := by
  have hfn : ∀ a, Continuous (fn N L a) := fun a => trigField_continuous _ _ _
  intro outs
  induction outs with
  | nil => intros; trivial
  | cons o outs ih =>
    intro t ht hpos hsum hw
    have h1 := hpos o (by simp)
    rw [List.map_cons, List.sum_cons] at hsum
    have h2 : 0 ≤ (outs.map fun o => o.2.2).sum := List.sum_nonneg fun a ha => by
      obtain ⟨o', ho', rfl⟩ := List.mem_map.1 ha
      exact hpos o' (by simp [ho'])
    refine ⟨?_, ih (t + o.2.2) (by linarith) (fun o' ho' => hpos o' (by simp [ho'])) (by linarith) hw.2⟩
    set t' := t + o.2.2 with ht'
    have h3 := hb t' ⟨by linarith, by linarith⟩
    have hd : ∀ i x, (fn N L (pr (U t') i) x - fn N L (pr o.1 i) x) ^ 2 ≤ ((Fintype.card (RModes N) : ℝ) * (2 * e)) ^ 2 := fun i x => by
      rw [← fn_sub, ← sq_abs]
      refine pow_le_pow_left₀ (abs_nonneg _) (fn_le N L _ (fun k => ?_) x) 2
      have := hw.1
      rw [norm_sub_rev] at this
      exact (hpr _ _ i k).trans this
    have c1 : Continuous fun x => ∑ i, (u t' i x - fn N L (pr (U t') i) x) ^ 2 :=
      continuous_finsetSum _ fun i _ => ((hu t' i).fun_sub (hfn _)).fun_pow 2
    refine (boxMean_mono hL (g := fun x => 2 * (∑ i, (u t' i x - fn N L (pr (U t') i) x) ^ 2) + 2 * (Fintype.card κ : ℝ) * ((Fintype.card (RModes N) : ℝ) * (2 * e)) ^ 2)
      (continuous_finsetSum _ fun i _ => ((hu t' i).fun_sub (hfn _)).fun_pow 2) (by fun_prop) fun x _ => ?_).trans ?_
    · have e1 : ∀ i, (u t' i x - fn N L (pr o.1 i) x) ^ 2 ≤ 2 * (u t' i x - fn N L (pr (U t') i) x) ^ 2 + 2 * ((Fintype.card (RModes N) : ℝ) * (2 * e)) ^ 2 :=
        fun i => by nlinarith [hd i x, sq_nonneg ((u t' i x - fn N L (pr (U t') i) x) - (fn N L (pr (U t') i) x - fn N L (pr o.1 i) x))]
      refine (Finset.sum_le_sum fun i _ => e1 i).trans_eq ?_
      rw [Finset.sum_add_distrib, ← Finset.mul_sum]
      simp
      ring
    · rw [boxMean_add L (by fun_prop) (by fun_prop), boxMean_const_mul, boxMean_const hL]
      linarith

theorem fst_part {d : ℕ} {ι S : Type*} [Fintype ι] [NormedAddCommGroup S] (V W : SArr d ι × S) (i : Fin d) (k : ι) : ‖V.1 i k - W.1 i k‖ ≤ ‖V - W‖ :=
  (norm_le_pi_norm ((V.1 - W.1) i) k).trans ((norm_le_pi_norm (V.1 - W.1) i).trans (norm_fst_le (V - W)))

theorem snd_part {d : ℕ} {ι S : Type*} [Fintype ι] [NormedAddCommGroup S] (V W : S × SArr d ι) (i : Fin d) (k : ι) : ‖V.2 i k - W.2 i k‖ ≤ ‖V - W‖ :=
  (norm_le_pi_norm ((V.2 - W.2) i) k).trans ((norm_le_pi_norm (V.2 - W.2) i).trans (norm_snd_le (V - W)))

/-- C110, MHD.  The velocities and magnetic fields computed with the fourth order Runge-Kutta integrator. -/
theorem C110_mhd_rk4 {L : Fin 3 → ℝ} (hL : ∀ i, 0 < L i) {nu eta T : ℝ} (hnu : 0 ≤ nu) (heta : 0 ≤ eta) (hT : 0 ≤ T)
    {u b : ℝ → Fin 3 → (Fin 3 → ℝ) → ℝ} {p : ℝ → (Fin 3 → ℝ) → ℝ} (h : ClassicalMHD L nu eta T u b p) (r : ℕ) :
    ∃ C, 0 ≤ C ∧ ∀ (N : Fin 3 → ℕ), (∀ i, 0 < N i) → ∀ K : ℝ, 0 ≤ K → (∀ i, K ≤ Real.pi * N i / L i) →
      ∀ ub0 : SArr 3 (RModes N) × SArr 3 (RModes N),
        (Solenoidal (scaledWaves N L) ub0.1 ∧ (∀ i, Unmasked N (ub0.1 i)) ∧ ∀ i, IsReal N (ub0.1 i)) →
        (Solenoidal (scaledWaves N L) ub0.2 ∧ (∀ i, Unmasked N (ub0.2 i)) ∧ ∀ i, IsReal N (ub0.2 i)) →
      ∀ est, let F := rhsMHD (padCtx N L nu 0) eta fun _ ub => convMHD ub (padCtx N L nu 0).Tp (padCtx N L nu 0).K
      ∃ m, Method.ofName "RK4" = some m ∧ ∃ C' H0 : ℝ, 0 < H0 ∧
      ∀ H, 0 ≤ H → H ≤ H0 → ∀ ds : List ℝ, (∀ d ∈ ds, 0 ≤ d ∧ d ≤ H) → ds.sum ≤ T → ∀ (fuel : ℕ) rhs,
        ∃ outs, runOutputs F est (fuel + 1) m 0 ds (getintegrator rhs ub0) = some outs ∧ (outs.map fun o => o.2.2) = ds ∧
          let e := C * (boxMean L (fun x => ∑ i, (u 0 i x - fn N L (ub0.1 i) x) ^ 2) + boxMean L (fun x => ∑ i, (b 0 i x - fn N L (ub0.2 i) x) ^ 2) +
            1 / (1 + K ^ 2) ^ r) + C' * H ^ 8
          FollowsFlow L (fun V i => fn N L (V.1 i)) u e 0 outs ∧ FollowsFlow L (fun V i => fn N L (V.2 i)) b e 0 outs := by
  obtain ⟨C, hC, H⟩ := C110_mhd hL hnu heta h r
  refine ⟨2 * C, by positivity, ?_⟩
  intro N hN K hK hKN ub0 h1 h2 est F
  obtain ⟨U, hU0, hU, -, -, -⟩ := C92_mhd (padCtx N L nu 0) (rspace_linear N _) eta (rweight N) (rweight_pos N) _ (padCtx_adjoint N L nu 0)
    (padCtx_leibniz N hN L nu 0) hnu heta 0 ub0 h1.1 h2.1 h1.2.1 h2.2.1
  have hrk := (C93_periodic.2.2.2.1 (padCtx N L nu 0) (rspace_linear N _) eta 0).fixed est T hT U (hU.on T) "RK4" 4 (by simp)
  rw [hU0] at hrk
  obtain ⟨m, hm', C1, H0, hH0, hrun⟩ := hrk
  refine ⟨m, hm', 2 * ((2 + 1 : ℕ) : ℝ) * ((Fintype.card (RModes N) : ℝ) * (2 * C1)) ^ 2, H0, hH0, fun dt hdt hdt0 ds hds hsum fuel rhs => ?_⟩
  obtain ⟨outs, o1, o2, o3⟩ := hrun dt hdt hdt0 ds hds hsum fuel rhs
  refine ⟨outs, o1, o2, ?_⟩
  have hb := H N hN K hK hKN 0 U (hU.on T) (hU0 ▸ h1) (hU0 ▸ h2)
  rw [hU0] at hb
  have hpos : ∀ o ∈ outs, 0 ≤ o.2.2 := fun o ho => (hds _ (by
    rw [← o2]
    exact List.mem_map.2 ⟨o, ho, rfl⟩)).1
  have hsq : ∀ g : Fin 3 → (Fin 3 → ℝ) → ℝ, 0 ≤ boxMean L (fun x => ∑ i, g i x ^ 2) := fun g =>
    boxMean_nonneg hL fun x _ => Finset.sum_nonneg fun i _ => sq_nonneg _
  have f1 := follows_part N hL (fun V : SArr 3 (RModes N) × SArr 3 (RModes N) => V.1) (fun V W i k => fst_part V W i k)
    (fun t i => ((h.smooth i).space t).continuous) (fun t ht => (le_add_of_nonneg_right (hsq _)).trans (hb t ht)) outs 0 le_rfl hpos
    (by rw [o2]; simpa using hsum) o3
  have f2 := follows_part N hL (fun V : SArr 3 (RModes N) × SArr 3 (RModes N) => V.2) (fun V W i k => snd_part V W i k)
    (fun t i => ((h.smooth_b i).space t).continuous) (fun t ht => (le_add_of_nonneg_left (hsq _)).trans (hb t ht)) outs 0 le_rfl hpos
    (by rw [o2]; simpa using hsum) o3
  constructor
  · convert f1 using 1
    simp
    ring
  · convert f2 using 1
    simp
    ring

/-- C110, Bq2D.  The velocities and densities computed with the fourth order Runge-Kutta integrator. -/
theorem C110_bq_rk4 {L : Fin 2 → ℝ} (hL : ∀ i, 0 < L i) {nu Ri Pr T : ℝ} (hnu : 0 ≤ nu) (hka : 0 ≤ nu / Pr) (hT : 0 ≤ T)
    {u : ℝ → Fin 2 → (Fin 2 → ℝ) → ℝ} {p rho : ℝ → (Fin 2 → ℝ) → ℝ} (h : ClassicalBq L nu Ri (nu / Pr) T u p rho) (r : ℕ) :
    ∃ C, 0 ≤ C ∧ ∀ (N : Fin 2 → ℕ), (∀ i, 0 < N i) → ∀ K : ℝ, 0 ≤ K → (∀ i, K ≤ Real.pi * N i / L i) →
      ∀ (w0 : SArr 2 (RModes N)) (ur0 : SArr 2 (RModes N) × (RModes N → ℂ)),
        (Solenoidal (scaledWaves N L) ur0.1 ∧ (∀ i, Unmasked N (ur0.1 i)) ∧ ∀ i, IsReal N (ur0.1 i)) → Unmasked N ur0.2 → IsReal N ur0.2 →
      ∀ est, let F := rhsBq (padCtx N L nu 0) Ri Pr fun r ur => convBq w0 r ur (padCtx N L nu 0).Tp (padCtx N L nu 0).K
      ∃ m, Method.ofName "RK4" = some m ∧ ∃ C' H0 : ℝ, 0 < H0 ∧
      ∀ H, 0 ≤ H → H ≤ H0 → ∀ ds : List ℝ, (∀ d ∈ ds, 0 ≤ d ∧ d ≤ H) → ds.sum ≤ T → ∀ (fuel : ℕ) rhs,
        ∃ outs, runOutputs F est (fuel + 1) m 0 ds (getintegrator rhs ur0) = some outs ∧ (outs.map fun o => o.2.2) = ds ∧
          let e := C * (boxMean L (fun x => ∑ i, (u 0 i x - fn N L (ur0.1 i) x) ^ 2) + boxMean L (fun x => (rho 0 x - fn N L ur0.2 x) ^ 2) +
            1 / (1 + K ^ 2) ^ r) + C' * H ^ 8
          FollowsFlow L (fun V i => fn N L (V.1 i)) u e 0 outs ∧ FollowsFlow L (fun V (_ : Unit) => fn N L V.2) (fun t _ => rho t) e 0 outs := by
  obtain ⟨C, hC, H⟩ := C110_bq hL hnu hka h r
  refine ⟨2 * C, by positivity, ?_⟩
  intro N hN K hK hKN w0 ur0 h1 h2 h3 est F
  obtain ⟨U, hU0, hU, -, -, -⟩ := C92_bq (padCtx N L nu 0) (rspace_linear N _) Ri Pr w0 (rweight N) (rweight_pos N) _ (padCtx_adjoint N L nu 0)
    (padCtx_leibniz N hN L nu 0) hnu hka 0 ur0 h1.1 h1.2.1 h2
  have hrk := (C93_periodic.2.2.2.2 (padCtx N L nu 0) (rspace_linear N _) Ri Pr w0 0).fixed est T hT U (hU.on T) "RK4" 4 (by simp)
  rw [hU0] at hrk
  obtain ⟨m, hm', C1, H0, hH0, hrun⟩ := hrk
  refine ⟨m, hm', 2 * ((1 + 1 : ℕ) : ℝ) * ((Fintype.card (RModes N) : ℝ) * (2 * C1)) ^ 2, H0, hH0, fun dt hdt hdt0 ds hds hsum fuel rhs => ?_⟩
  obtain ⟨outs, o1, o2, o3⟩ := hrun dt hdt hdt0 ds hds hsum fuel rhs
  refine ⟨outs, o1, o2, ?_⟩
  have hb := H N hN K hK hKN w0 0 U (hU.on T) (hU0 ▸ h1) (hU0 ▸ h2) (hU0 ▸ h3)
  rw [hU0] at hb
  have hpos : ∀ o ∈ outs, 0 ≤ o.2.2 := fun o ho => (hds _ (by
    rw [← o2]
    exact List.mem_map.2 ⟨o, ho, rfl⟩)).1
  have f1 := follows_part (n := 1) N hL (fun V : SArr 2 (RModes N) × (RModes N → ℂ) => V.1) (fun V W i k => fst_part V W i k)
    (fun t i => ((h.smooth i).space t).continuous) (fun t ht => (le_add_of_nonneg_right (boxMean_nonneg hL fun x _ => sq_nonneg _)).trans (hb t ht))
    outs 0 le_rfl hpos (by rw [o2]; simpa using hsum) o3
  have f2 := follows_part (n := 1) N hL (κ := Unit) (fun (V : SArr 2 (RModes N) × (RModes N → ℂ)) _ => V.2)
    (fun V W i k => (norm_le_pi_norm (V.2 - W.2) k).trans (norm_snd_le (V - W)))
    (fun t i => (h.smooth_rho.space t).continuous) (fun t ht => (le_of_eq (by simp only [Finset.univ_unique, Finset.sum_singleton])).trans
      ((le_add_of_nonneg_left (boxMean_nonneg hL fun x _ => Finset.sum_nonneg fun i _ => sq_nonneg _)).trans (hb t ht)))
    outs 0 le_rfl hpos (by rw [o2]; simpa using hsum) o3
  constructor
  · convert f1 using 1
    simp
    ring
  · refine follows_mono ?_ outs 0 f2
    have : 0 ≤ (Fintype.card (RModes N) * (2 * (C1 * dt ^ 4)) : ℝ) ^ 2 := sq_nonneg _
    simp
    nlinarith

/-! ## Convergence -/

/-- The choice of the tolerance of the start, of the mesh and of the time step. -/
theorem exists_resolution {d : ℕ} {L : Fin d → ℝ} (hL : ∀ i, 0 < L i) {C : ℝ} (hC : 0 ≤ C) {ε : ℝ} (hε : 0 < ε) :
    ∃ δ : ℝ, 0 < δ ∧ ∃ M : ℕ, ∃ K : ℝ, 0 ≤ K ∧ (∀ N : Fin d → ℕ, (∀ i, M ≤ N i) → ∀ i, K ≤ Real.pi * N i / L i) ∧
      ∀ a b : ℝ, a ≤ δ → b ≤ δ → ∀ C' H0 : ℝ, 0 < H0 → ∃ H, 0 < H ∧ H ≤ H0 ∧ C * (a + b + 1 / (1 + K ^ 2) ^ 1) + C' * H ^ 8 ≤ ε := by
  obtain ⟨δ, hδ⟩ : ∃ δ, δ = ε / (6 * (C + 1)) := ⟨_, rfl⟩
  have hδ0 : 0 < δ := by rw [hδ]; positivity
  have hCδ : C * (δ + δ + δ) ≤ ε / 2 := by
    have : (C + 1) * (6 * δ) = ε := by rw [hδ]; field_simp
    nlinarith
  have hpi := Real.pi_pos
  obtain ⟨M, hM⟩ := exists_nat_ge ((∑ i, L i) / (δ * Real.pi))
  refine ⟨δ, hδ0, M, 1 / δ, by positivity, fun N hN i => ?_, fun a b ha hb C' H0 hH0 => ?_⟩
  · have h1 : L i ≤ ∑ i, L i := Finset.single_le_sum (fun i _ => (hL i).le) (Finset.mem_univ i)
    have h2 : (∑ i, L i) / (δ * Real.pi) ≤ N i := hM.trans (by exact_mod_cast hN i)
    rw [div_le_iff₀ (by positivity)] at h2
    rw [div_le_div_iff₀ hδ0 (hL i)]
    linarith
  have hk : 1 / (1 + (1 / δ) ^ 2) ^ 1 ≤ δ := by
    rw [pow_one, div_le_iff₀ (by positivity)]
    have : δ * (1 + (1 / δ) ^ 2) = δ + 1 / δ := by field_simp
    rw [this]
    have h2 : δ * (1 / δ) = 1 := by field_simp
    nlinarith [sq_nonneg (δ - 1 / δ), (by positivity : 0 < 1 / δ)]
  have hA : 0 < |C'| + 1 := by positivity
  refine ⟨min H0 (min 1 (ε / (2 * (|C'| + 1)))), by positivity, min_le_left _ _, ?_⟩
  set η := min H0 (min 1 (ε / (2 * (|C'| + 1)))) with hη
  have e0 : 0 < η := by positivity
  have e1 : η ≤ 1 := (min_le_right _ _).trans (min_le_left _ _)
  have e2 : η ≤ ε / (2 * (|C'| + 1)) := (min_le_right _ _).trans (min_le_right _ _)
  have e3 : η ^ 8 ≤ η := pow_le_of_le_one e0.le e1 (by norm_num)
  have e4 : C' * η ^ 8 ≤ ε / 2 := by
    rw [le_div_iff₀ (by positivity)] at e2
    have a1 : C' * η ^ 8 ≤ |C'| * η ^ 8 := mul_le_mul_of_nonneg_right (le_abs_self _) (by positivity)
    have a2 : |C'| * η ^ 8 ≤ |C'| * η := mul_le_mul_of_nonneg_left e3 (abs_nonneg _)
    linarith
  have e5 := mul_le_mul_of_nonneg_left (add_le_add (add_le_add ha hb) hk) hC
  linarith

/-- C110, MHD.  Convergence: for every tolerance, on every sufficiently fine mesh, with a sufficiently accurate start and sufficiently small steps, all
computed velocities and magnetic fields are within the tolerance of the solution of the equations of magnetohydrodynamics in the mean square. -/
theorem C110_mhd_converges {L : Fin 3 → ℝ} (hL : ∀ i, 0 < L i) {nu eta T : ℝ} (hnu : 0 ≤ nu) (heta : 0 ≤ eta) (hT : 0 ≤ T)
    {u b : ℝ → Fin 3 → (Fin 3 → ℝ) → ℝ} {p : ℝ → (Fin 3 → ℝ) → ℝ} (h : ClassicalMHD L nu eta T u b p) (ε : ℝ) (hε : 0 < ε) :
    ∃ δ : ℝ, 0 < δ ∧ ∃ M : ℕ, ∀ (N : Fin 3 → ℕ), (∀ i, 0 < N i ∧ M ≤ N i) →
      ∀ ub0 : SArr 3 (RModes N) × SArr 3 (RModes N),
        (Solenoidal (scaledWaves N L) ub0.1 ∧ (∀ i, Unmasked N (ub0.1 i)) ∧ ∀ i, IsReal N (ub0.1 i)) →
        (Solenoidal (scaledWaves N L) ub0.2 ∧ (∀ i, Unmasked N (ub0.2 i)) ∧ ∀ i, IsReal N (ub0.2 i)) →
      boxMean L (fun x => ∑ i, (u 0 i x - fn N L (ub0.1 i) x) ^ 2) ≤ δ → boxMean L (fun x => ∑ i, (b 0 i x - fn N L (ub0.2 i) x) ^ 2) ≤ δ →
      ∀ est, let F := rhsMHD (padCtx N L nu 0) eta fun _ ub => convMHD ub (padCtx N L nu 0).Tp (padCtx N L nu 0).K
      ∃ m, Method.ofName "RK4" = some m ∧ ∃ H0 : ℝ, 0 < H0 ∧
      ∀ ds : List ℝ, (∀ d ∈ ds, 0 ≤ d ∧ d ≤ H0) → ds.sum ≤ T → ∀ (fuel : ℕ) rhs,
        ∃ outs, runOutputs F est (fuel + 1) m 0 ds (getintegrator rhs ub0) = some outs ∧ (outs.map fun o => o.2.2) = ds ∧
          FollowsFlow L (fun V i => fn N L (V.1 i)) u ε 0 outs ∧ FollowsFlow L (fun V i => fn N L (V.2 i)) b ε 0 outs := by
  obtain ⟨C, hC, H⟩ := C110_mhd_rk4 hL hnu heta hT h 1
  obtain ⟨δ, hδ, M, K, hK, hM, hres⟩ := exists_resolution hL hC hε
  refine ⟨δ, hδ, M, ?_⟩
  intro N hN ub0 h1 h2 i1 i2 est F
  obtain ⟨m, hm, C', H0, hH0, hrun⟩ := H N (fun i => (hN i).1) K hK (hM N fun i => (hN i).2) ub0 h1 h2 est
  obtain ⟨H1, hp, hle, hfin⟩ := hres _ _ i1 i2 C' H0 hH0
  refine ⟨m, hm, H1, hp, fun ds hds hsum fuel rhs => ?_⟩
  obtain ⟨outs, o1, o2, o3, o4⟩ := hrun H1 hp.le hle ds hds hsum fuel rhs
  exact ⟨outs, o1, o2, follows_mono hfin outs 0 o3, follows_mono hfin outs 0 o4⟩

/-- C110, Bq2D.  Convergence of the computed velocities and densities. -/
theorem C110_bq_converges {L : Fin 2 → ℝ} (hL : ∀ i, 0 < L i) {nu Ri Pr T : ℝ} (hnu : 0 ≤ nu) (hka : 0 ≤ nu / Pr) (hT : 0 ≤ T)
    {u : ℝ → Fin 2 → (Fin 2 → ℝ) → ℝ} {p rho : ℝ → (Fin 2 → ℝ) → ℝ} (h : ClassicalBq L nu Ri (nu / Pr) T u p rho) (ε : ℝ) (hε : 0 < ε) :
    ∃ δ : ℝ, 0 < δ ∧ ∃ M : ℕ, ∀ (N : Fin 2 → ℕ), (∀ i, 0 < N i ∧ M ≤ N i) →
      ∀ (w0 : SArr 2 (RModes N)) (ur0 : SArr 2 (RModes N) × (RModes N → ℂ)),
        (Solenoidal (scaledWaves N L) ur0.1 ∧ (∀ i, Unmasked N (ur0.1 i)) ∧ ∀ i, IsReal N (ur0.1 i)) → Unmasked N ur0.2 → IsReal N ur0.2 →
      boxMean L (fun x => ∑ i, (u 0 i x - fn N L (ur0.1 i) x) ^ 2) ≤ δ → boxMean L (fun x => (rho 0 x - fn N L ur0.2 x) ^ 2) ≤ δ →
      ∀ est, let F := rhsBq (padCtx N L nu 0) Ri Pr fun r ur => convBq w0 r ur (padCtx N L nu 0).Tp (padCtx N L nu 0).K
      ∃ m, Method.ofName "RK4" = some m ∧ ∃ H0 : ℝ, 0 < H0 ∧
      ∀ ds : List ℝ, (∀ d ∈ ds, 0 ≤ d ∧ d ≤ H0) → ds.sum ≤ T → ∀ (fuel : ℕ) rhs,
        ∃ outs, runOutputs F est (fuel + 1) m 0 ds (getintegrator rhs ur0) = some outs ∧ (outs.map fun o => o.2.2) = ds ∧
          FollowsFlow L (fun V i => fn N L (V.1 i)) u ε 0 outs ∧ FollowsFlow L (fun V (_ : Unit) => fn N L V.2) (fun t _ => rho t) ε 0 outs := by
  obtain ⟨C, hC, H⟩ := C110_bq_rk4 hL hnu hka hT h 1
  obtain ⟨δ, hδ, M, K, hK, hM, hres⟩ := exists_resolution hL hC hε
  refine ⟨δ, hδ, M, ?_⟩
  intro N hN w0 ur0 h1 h2 h3 i1 i2 est F
  obtain ⟨m, hm, C', H0, hH0, hrun⟩ := H N (fun i => (hN i).1) K hK (hM N fun i => (hN i).2) w0 ur0 h1 h2 h3 est
  obtain ⟨H1, hp, hle, hfin⟩ := hres _ _ i1 i2 C' H0 hH0
  refine ⟨m, hm, H1, hp, fun ds hds hsum fuel rhs => ?_⟩
  obtain ⟨outs, o1, o2, o3, o4⟩ := hrun H1 hp.le hle ds hds hsum fuel rhs
  exact ⟨outs, o1, o2, follows_mono hfin outs 0 o3, follows_mono hfin outs 0 o4⟩

/-! ## Solutions that meet the hypotheses -/

theorem pderiv_wave {d : ℕ} (i0 : Fin d) (g g' : ℝ → ℝ) (hg : ∀ s, HasDerivAt g (g' s) s) (j : Fin d) :
    pderiv j (fun x : Fin d → ℝ => g (x i0)) = fun x => if j = i0 then g' (x i0) else 0 := by
  funext x
  unfold pderiv
  split_ifs with hj
  · subst hj
    simpa using (hg (x j)).deriv
  · simp [Function.update_of_ne (Ne.symm hj)]

theorem pderiv_const {d : ℕ} (j : Fin d) (c : ℝ) : pderiv j (fun _ : Fin d → ℝ => c) = fun _ => 0 := by
  funext x
  simp [pderiv]

/-- A decaying Alfven wave along a uniform magnetic field. -/
example (nu T : ℝ) : ClassicalMHD (fun _ : Fin 3 => 2 * Real.pi) nu nu T (fun t => ![fun _ => 0, fun _ => 0, fun x => Real.exp (-nu * t) * Real.cos (x 0 + t)])
    (fun t => ![fun _ => 1, fun _ => 0, fun x => Real.exp (-nu * t) * Real.cos (x 0 + t)]) (fun _ _ => 0) := by
  have g1 : ∀ c t s : ℝ, HasDerivAt (fun s => c * Real.cos (s + t)) (c * -Real.sin (s + t)) s := fun c t s => by
    simpa using (((hasDerivAt_id s).add_const t).cos).const_mul c
  have g2 : ∀ c t s : ℝ, HasDerivAt (fun s => c * -Real.sin (s + t)) (-(c * Real.cos (s + t))) s := fun c t s => by
    simpa using ((((hasDerivAt_id s).add_const t).sin).neg).const_mul c
  have d1 := fun c t => pderiv_wave (0 : Fin 3) _ _ (g1 c t)
  have d2 := fun c t => pderiv_wave (0 : Fin 3) _ _ (g2 c t)
  have ht : ∀ a t : ℝ, _root_.deriv (fun s => Real.exp (-nu * s) * Real.cos (a + s)) t =
      Real.exp (-nu * t) * -Real.sin (a + t) + nu * -(Real.exp (-nu * t) * Real.cos (a + t)) := fun a t => by
    have := ((hasDerivAt_id t).const_mul (-nu)).exp.mul (((hasDerivAt_id t).const_add a).cos)
    refine (HasDerivAt.deriv (this.congr_deriv ?_))
    simp
    ring
  have hw : ∀ a t : ℝ, Real.cos (a + 2 * Real.pi + t) = Real.cos (a + t) := fun a t => by
    rw [show a + 2 * Real.pi + t = a + t + 2 * Real.pi by ring, Real.cos_add_two_pi]
  refine ⟨fun i => ?_, fun i => ?_, fun t => contDiff_const, fun t i j x => ?_, fun t i j x => ?_, fun t j x => rfl, fun t _ x => ?_, fun t _ x => ?_,
    fun t _ x i => ?_, fun t _ x i => ?_⟩
  · fin_cases i <;> simp only [SmoothField] <;> simp <;> fun_prop
  · fin_cases i <;> simp only [SmoothField] <;> simp <;> fun_prop
  · fin_cases i <;> fin_cases j <;> simp [hw]
  · fin_cases i <;> fin_cases j <;> simp [hw]
  · simp [Fin.sum_univ_three, d1, pderiv_const]
  · simp [Fin.sum_univ_three, d1, pderiv_const]
  · fin_cases i <;> simp [Fin.sum_univ_three, d1, d2, pderiv_const, ht, -neg_mul, -mul_neg]
  · fin_cases i <;> simp [Fin.sum_univ_three, d1, d2, pderiv_const, ht, -neg_mul, -mul_neg]

/-- Columns of heavy and light fluid that sink and rise: `rho = exp(-nu t) cos x_0`, `v = -Ri t exp(-nu t) cos x_0`, with `Pr = 1`. -/
example (nu Ri T : ℝ) : ClassicalBq (fun _ => 2 * Real.pi) nu Ri (nu / 1) T (fun t => ![fun _ => 0, fun x => -Ri * t * Real.exp (-nu * t) * Real.cos (x 0)])
    (fun _ _ => 0) (fun t x => Real.exp (-nu * t) * Real.cos (x 0)) := by
  have g1 : ∀ c s : ℝ, HasDerivAt (fun s => c * Real.cos s) (c * -Real.sin s) s := fun c s => (Real.hasDerivAt_cos s).const_mul c
  have g2 : ∀ c s : ℝ, HasDerivAt (fun s => c * -Real.sin s) (-(c * Real.cos s)) s := fun c s => by
    simpa using (Real.hasDerivAt_sin s).neg.const_mul c
  have d1 := fun c => pderiv_wave (0 : Fin 2) _ _ (g1 c)
  have d2 := fun c => pderiv_wave (0 : Fin 2) _ _ (g2 c)
  have hs2 : ∀ F : Fin 2 → ℝ, ∑ j, F j = F 0 + F 1 := fun F => Fin.sum_univ_two F
  have h1 : ∀ a t : ℝ, HasDerivAt (fun s => Real.exp (-nu * s) * a) (Real.exp (-nu * t) * -nu * a) t := fun a t => by
    simpa using ((hasDerivAt_id t).const_mul (-nu)).exp.mul_const a
  have h2 : ∀ a t : ℝ, HasDerivAt (fun s => -Ri * s * Real.exp (-nu * s) * a) ((-Ri * Real.exp (-nu * t) + -Ri * t * (Real.exp (-nu * t) * -nu)) * a) t :=
    fun a t => by
      simpa using (((hasDerivAt_id t).const_mul (-Ri)).mul ((hasDerivAt_id t).const_mul (-nu)).exp).mul_const a
  refine ⟨fun i => ?_, ?_, fun t => contDiff_const, fun t i j x => ?_, fun t j x => ?_, fun t j x => rfl, fun t _ x => ?_, fun t _ x i => ?_, fun t _ x => ?_⟩
  · fin_cases i <;> simp only [SmoothField] <;> simp <;> fun_prop
  · simp only [SmoothField]; fun_prop
  · fin_cases i <;> fin_cases j <;> simp
  · fin_cases j <;> simp
  · simp [hs2, d1, pderiv_const, -neg_mul]
  · fin_cases i
    · simp [hs2, pderiv_const]
    · have e := (h2 (Real.cos (x 0)) t).deriv
      simp [hs2, d1, d2, pderiv_const, -neg_mul, -mul_neg, e]
      ring
  · rw [(h1 (Real.cos (x 0)) t).deriv]
    simp [hs2, d1, d2, pderiv_const, -neg_mul, -mul_neg]
    ring

end SpectralDNS.Torus

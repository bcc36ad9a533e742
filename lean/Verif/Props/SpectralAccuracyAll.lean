import Verif.Props.SpectralAccuracyMHD

/-!
# C111: every integrator and every periodic solver follow the solutions of the differential equations

C109 and C110 for all five integrators, and for VV, whose unknown is the vorticity.
-/

namespace SpectralDNS.Torus

open Complex Spec Periodic Dealias MeasureTheory
open scoped ContDiff

/-- Started from `s0` with the right-hand side `F`, each integrator computes states whose fields `val` stay within `b` (plus a power of the time step: twice
the order, because the distance is a mean square) of the fields `u` in the mean square, up to time `T`. -/
structure FollowsAll {S κ : Type*} [NormedAddCommGroup S] [NormedSpace ℝ S] [Fintype κ] {d : ℕ} (L : Fin d → ℝ) (val : S → κ → (Fin d → ℝ) → ℝ)
    (u : ℝ → κ → (Fin d → ℝ) → ℝ) (F : S → S → S) (s0 : S) (T b : ℝ) : Prop where
  fixed : ∀ (est : S → S → S → PyF) (name : String) (q : ℕ), (name, q) ∈ [("ForwardEuler", 1), ("RK4", 4), ("BS5_fixed", 5)] →
    ∃ m, Method.ofName name = some m ∧ ∃ C H0 : ℝ, 0 < H0 ∧ ∀ H, 0 ≤ H → H ≤ H0 → ∀ ds : List ℝ, (∀ d ∈ ds, 0 ≤ d ∧ d ≤ H) → ds.sum ≤ T →
      ∀ (fuel : ℕ) (rhs : S), ∃ outs, runOutputs F est (fuel + 1) m 0 ds (getintegrator rhs s0) = some outs ∧
        (outs.map fun o => o.2.2) = ds ∧ FollowsFlow L val u (b + C * H ^ (2 * q)) 0 outs
  ab2 : ∀ est : S → S → S → PyF, ∃ m, Method.ofName "AB2" = some m ∧ ∃ C H0 : ℝ, 0 < H0 ∧ ∀ h, 0 ≤ h → h ≤ H0 → ∀ n : ℕ, n * h ≤ T →
      ∀ (fuel : ℕ) (rhs : S), ∃ outs, runOutputs F est fuel m 0 (List.replicate n h) (getintegrator rhs s0) = some outs ∧
        (outs.map fun o => o.2.2) = List.replicate n h ∧ FollowsFlow L val u (b + C * h ^ 4) 0 outs
  adaptive : ∀ est : S → S → S → PyF, (∀ a b c, (est a b c).Nonneg) →
    ∃ m, Method.ofName "BS5_adaptive" = some m ∧ ∃ C H0 : ℝ, 0 < H0 ∧ ∀ H, 0 ≤ H → H ≤ H0 → ∀ (ds : List ℝ) (fuel : ℕ) (rhs : S) outs,
      runOutputs F est fuel m 0 ds (getintegrator rhs s0) = some outs → (∀ o ∈ outs, 0 ≤ o.2.2 ∧ o.2.2 ≤ H) →
      (outs.map fun o => o.2.2).sum ≤ T → FollowsFlow L val u (b + C * H ^ 10) 0 outs

/-- Fields that depend on the state with a Lipschitz constant. -/
theorem follows_lip {n : ℕ} {L : Fin (n + 1) → ℝ} (N : Fin (n + 1) → ℕ) (hL : ∀ i, 0 < L i) {S κ : Type*} [NormedAddCommGroup S] [Fintype κ]
    (pr : S → κ → RModes N → ℂ) {B : ℝ} (hpr : ∀ V W i k, ‖pr V i k - pr W i k‖ ≤ B * ‖V - W‖) {u : ℝ → κ → (Fin (n + 1) → ℝ) → ℝ}
    (hu : ∀ t i, Continuous (u t i)) {U : ℝ → S} {T b e : ℝ} (hB : 0 ≤ B)
    (hb : ∀ t ∈ Set.Icc 0 T, boxMean L (fun x => ∑ i, (u t i x - fn N L (pr (U t) i) x) ^ 2) ≤ b)
    (outs : List (S × ℝ × ℝ)) (hpos : ∀ o ∈ outs, 0 ≤ o.2.2) (hsum : (outs.map fun o => o.2.2).sum ≤ T) (hw : Within U e 0 outs) :
    FollowsFlow L (fun V i => fn N L (pr V i)) u (2 * b + 2 * (Fintype.card κ : ℝ) * ((Fintype.card (RModes N) : ℝ) * (2 * (B * e))) ^ 2) 0 outs := by
  have hgen : ∀ (outs : List (S × ℝ × ℝ)) (t : ℝ), Within U e t outs →
      Within (fun t => pr (U t)) (B * e) t (outs.map fun o => (pr o.1, o.2)) := by
    intro outs
    induction outs with
    | nil => intros; trivial
    | cons o outs ih =>
      intro t hw
      refine ⟨?_, ih _ hw.2⟩
      refine (pi_norm_le_iff_of_nonneg ?_).2 fun i => (pi_norm_le_iff_of_nonneg ?_).2 fun k => (hpr _ _ i k).trans (mul_le_mul_of_nonneg_left hw.1 hB)
      all_goals exact mul_nonneg hB ((norm_nonneg _).trans hw.1)
  have h1 := follows_part N hL (S := κ → RModes N → ℂ) (fun V => V) (fun V W i k => (norm_le_pi_norm ((V - W) i) k).trans (norm_le_pi_norm (V - W) i)) hu
    (U := fun t => pr (U t)) hb (outs.map fun o => (pr o.1, o.2)) 0 le_rfl (fun o ho => by
      obtain ⟨o', ho', rfl⟩ := List.mem_map.1 ho
      exact hpos o' ho') (by simpa [List.map_map, Function.comp_def] using hsum) (hgen outs 0 hw)
  have hback : ∀ (outs : List (S × ℝ × ℝ)) (t e : ℝ), FollowsFlow L (fun (V : κ → RModes N → ℂ) i => fn N L (V i)) u e t (outs.map fun o => (pr o.1, o.2)) →
      FollowsFlow L (fun V i => fn N L (pr V i)) u e t outs := by
    intro outs
    induction outs with
    | nil => intros; trivial
    | cons o outs ih => exact fun t e h => ⟨h.1, ih _ _ h.2⟩
  exact hback outs 0 _ h1

theorem followsAll_of {n : ℕ} {L : Fin (n + 1) → ℝ} (N : Fin (n + 1) → ℕ) (hL : ∀ i, 0 < L i) {S κ : Type*} [NormedAddCommGroup S] [NormedSpace ℝ S]
    [Fintype κ] (pr : S → κ → RModes N → ℂ) {B : ℝ} (hB : 0 ≤ B) (hpr : ∀ V W i k, ‖pr V i k - pr W i k‖ ≤ B * ‖V - W‖)
    {u : ℝ → κ → (Fin (n + 1) → ℝ) → ℝ} (hu : ∀ t i, Continuous (u t i)) {F : S → S → S} {f : S → S} (hF : Converges F f) {U : ℝ → S} {T b : ℝ}
    (hT : 0 ≤ T) (hU : SolvesOn f T U) (hb : ∀ t ∈ Set.Icc 0 T, boxMean L (fun x => ∑ i, (u t i x - fn N L (pr (U t) i) x) ^ 2) ≤ b) :
    FollowsAll L (fun V i => fn N L (pr V i)) u F (U 0) T (2 * b) := by
  refine ⟨fun est name q hq => ?_, fun est => ?_, fun est hest => ?_⟩
  · obtain ⟨m, hm, C, H0, hH0, hrun⟩ := hF.fixed est T hT U hU name q hq
    refine ⟨m, hm, 2 * (Fintype.card κ : ℝ) * ((Fintype.card (RModes N) : ℝ) * (2 * (B * C))) ^ 2, H0, hH0, fun H h0 h1 ds hds hsum fuel rhs => ?_⟩
    obtain ⟨outs, o1, o2, o3⟩ := hrun H h0 h1 ds hds hsum fuel rhs
    refine ⟨outs, o1, o2, ?_⟩
    have := follows_lip N hL pr hpr hu hB hb outs (fun o ho => (hds _ (by rw [← o2]; exact List.mem_map.2 ⟨o, ho, rfl⟩)).1) (by rw [o2]; exact hsum) o3
    refine follows_mono (le_of_eq ?_) outs 0 this
    ring
  · obtain ⟨m, hm, C, H0, hH0, hrun⟩ := hF.ab2 est T hT U hU
    refine ⟨m, hm, 2 * (Fintype.card κ : ℝ) * ((Fintype.card (RModes N) : ℝ) * (2 * (B * C))) ^ 2, H0, hH0, fun h h0 h1 k hk fuel rhs => ?_⟩
    obtain ⟨outs, o1, o2, o3⟩ := hrun h h0 h1 k hk fuel rhs
    refine ⟨outs, o1, o2, ?_⟩
    have hmem : ∀ o ∈ outs, o.2.2 = h := fun o ho => List.eq_of_mem_replicate (by rw [← o2]; exact List.mem_map.2 ⟨o, ho, rfl⟩)
    have := follows_lip N hL pr hpr hu hB hb outs (fun o ho => by rw [hmem o ho]; exact h0) (by rw [o2]; simpa using hk) o3
    refine follows_mono (le_of_eq ?_) outs 0 this
    ring
  · obtain ⟨m, hm, C, H0, hH0, hrun⟩ := hF.adaptive est hest T hT U hU
    refine ⟨m, hm, 2 * (Fintype.card κ : ℝ) * ((Fintype.card (RModes N) : ℝ) * (2 * (B * C))) ^ 2, H0, hH0, fun H h0 h1 ds fuel rhs outs o1 o2 o3 => ?_⟩
    have := follows_lip N hL pr hpr hu hB hb outs (fun o ho => (o2 o ho).1) o3 (hrun H h0 h1 ds fuel rhs outs o1 o2 o3)
    refine follows_mono (le_of_eq ?_) outs 0 this
    ring

theorem self_part {d : ℕ} {ι : Type*} [Fintype ι] (V W : SArr d ι) (i : Fin d) (k : ι) : ‖V i k - W i k‖ ≤ 1 * ‖V - W‖ := by
  rw [one_mul]
  exact (norm_le_pi_norm ((V - W) i) k).trans (norm_le_pi_norm (V - W) i)

/-! ## The solvers -/

/-- C111, NS. -/
theorem C111_ns {L : Fin 3 → ℝ} (hL : ∀ i, 0 < L i) {nu T : ℝ} (hnu : 0 ≤ nu) (hT : 0 ≤ T) {f : Fin 3 → (Fin 3 → ℝ) → ℝ}
    {u : ℝ → Fin 3 → (Fin 3 → ℝ) → ℝ} {p : ℝ → (Fin 3 → ℝ) → ℝ} (h : ClassicalNS L nu T f u p) (r : ℕ) :
    ∃ C, 0 ≤ C ∧ ∀ (N : Fin 3 → ℕ), (∀ i, 0 < N i) → ∀ K : ℝ, 0 ≤ K → (∀ i, K ≤ Real.pi * N i / L i) →
      ∀ (Source : SArr 3 (RModes N)), Solenoidal (scaledWaves N L) Source → (∀ i, Unmasked N (Source i)) → (∀ i, IsReal N (Source i)) →
      ∀ (s : Scratch 3 (RModes N) (Grid fun i => padded (N i))) (name : String) (conv), getConvection name = some conv →
      ∀ (u0 : SArr 3 (RModes N)), Solenoidal (scaledWaves N L) u0 → (∀ i, Unmasked N (u0 i)) → (∀ i, IsReal N (u0 i)) →
      FollowsAll L (fun V i => fn N L (V i)) u (rhsNS (padCtx N L nu Source) fun r u => conv s r u (padCtx N L nu Source).Tp (padCtx N L nu Source).K) u0 T
        (C * (boxMean L (fun x => ∑ i, (u 0 i x - fn N L (u0 i) x) ^ 2) + boxMean L (fun x => ∑ i, (f i x - fn N L (Source i) x) ^ 2) +
          1 / (1 + K ^ 2) ^ r)) := by
  obtain ⟨C, hC, H⟩ := C109_ns hL hnu h r
  refine ⟨2 * C, by positivity, fun N hN K hK hKN Source hs hsm hSr s name conv hname u0 h0 hm hr => ?_⟩
  obtain ⟨U, hU0, hU, -, -, -⟩ := C92_ns_padded N hN L nu hnu Source hs hsm s name conv hname 0 u0 h0 hm
  have hb := H N hN K hK hKN Source hs hsm hSr s name conv hname 0 U (hU.on T) (hU0 ▸ h0) (hU0 ▸ hm) (hU0 ▸ hr)
  have := followsAll_of N hL (fun V : SArr 3 (RModes N) => V) zero_le_one self_part (fun t i => ((h.smooth i).space t).continuous)
    (C93_periodic.1 (padCtx N L nu Source) (rspace_linear N _) s name conv hname 0) hT (hU.on T) hb
  rwa [hU0, ← mul_assoc] at this

/-- C111, NS2D. -/
theorem C111_ns2d {L : Fin 2 → ℝ} (hL : ∀ i, 0 < L i) {nu T : ℝ} (hnu : 0 ≤ nu) (hT : 0 ≤ T) {f : Fin 2 → (Fin 2 → ℝ) → ℝ}
    {u : ℝ → Fin 2 → (Fin 2 → ℝ) → ℝ} {p : ℝ → (Fin 2 → ℝ) → ℝ} (h : ClassicalNS L nu T f u p) (r : ℕ) :
    ∃ C, 0 ≤ C ∧ ∀ (N : Fin 2 → ℕ), (∀ i, 0 < N i) → ∀ K : ℝ, 0 ≤ K → (∀ i, K ≤ Real.pi * N i / L i) →
      ∀ (Source : SArr 2 (RModes N)), Solenoidal (scaledWaves N L) Source → (∀ i, Unmasked N (Source i)) → (∀ i, IsReal N (Source i)) →
      ∀ (w0 : RModes N → ℂ) (u0 : SArr 2 (RModes N)), Solenoidal (scaledWaves N L) u0 → (∀ i, Unmasked N (u0 i)) → (∀ i, IsReal N (u0 i)) →
      FollowsAll L (fun V i => fn N L (V i)) u
        (rhsNS (padCtx N L nu Source) fun r u => conv2DVortex w0 r u (padCtx N L nu Source).Tp (padCtx N L nu Source).K) u0 T
        (C * (boxMean L (fun x => ∑ i, (u 0 i x - fn N L (u0 i) x) ^ 2) + boxMean L (fun x => ∑ i, (f i x - fn N L (Source i) x) ^ 2) +
          1 / (1 + K ^ 2) ^ r)) := by
  obtain ⟨C, hC, H⟩ := C109_ns2d hL hnu h r
  refine ⟨2 * C, by positivity, fun N hN K hK hKN Source hs hsm hSr w0 u0 h0 hm hr => ?_⟩
  obtain ⟨U, hU0, hU, -, -, -⟩ := C92_ns2d (padCtx N L nu Source) (rspace_linear N _) w0 (rweight N) (rweight_pos N) _ (padCtx_adjoint N L nu Source)
    hnu hs hsm 0 u0 h0 hm
  have hb := H N hN K hK hKN Source hs hsm hSr w0 0 U (hU.on T) (hU0 ▸ h0) (hU0 ▸ hm) (hU0 ▸ hr)
  have := followsAll_of (n := 1) N hL (fun V : SArr 2 (RModes N) => V) zero_le_one self_part (fun t i => ((h.smooth i).space t).continuous)
    (C93_periodic.2.1 (padCtx N L nu Source) (rspace_linear N _) w0 0) hT (hU.on T) hb
  rwa [hU0, ← mul_assoc] at this

/-- C111, MHD: velocity and magnetic field. -/
theorem C111_mhd {L : Fin 3 → ℝ} (hL : ∀ i, 0 < L i) {nu eta T : ℝ} (hnu : 0 ≤ nu) (heta : 0 ≤ eta) (hT : 0 ≤ T)
    {u b : ℝ → Fin 3 → (Fin 3 → ℝ) → ℝ} {p : ℝ → (Fin 3 → ℝ) → ℝ} (h : ClassicalMHD L nu eta T u b p) (r : ℕ) :
    ∃ C, 0 ≤ C ∧ ∀ (N : Fin 3 → ℕ), (∀ i, 0 < N i) → ∀ K : ℝ, 0 ≤ K → (∀ i, K ≤ Real.pi * N i / L i) →
      ∀ ub0 : SArr 3 (RModes N) × SArr 3 (RModes N),
        (Solenoidal (scaledWaves N L) ub0.1 ∧ (∀ i, Unmasked N (ub0.1 i)) ∧ ∀ i, IsReal N (ub0.1 i)) →
        (Solenoidal (scaledWaves N L) ub0.2 ∧ (∀ i, Unmasked N (ub0.2 i)) ∧ ∀ i, IsReal N (ub0.2 i)) →
      FollowsAll L (fun V => Sum.elim (fun i => fn N L (V.1 i)) fun i => fn N L (V.2 i)) (fun t => Sum.elim (u t) (b t))
        (rhsMHD (padCtx N L nu 0) eta fun _ ub => convMHD ub (padCtx N L nu 0).Tp (padCtx N L nu 0).K) ub0 T
        (C * (boxMean L (fun x => ∑ i, (u 0 i x - fn N L (ub0.1 i) x) ^ 2) + boxMean L (fun x => ∑ i, (b 0 i x - fn N L (ub0.2 i) x) ^ 2) +
            1 / (1 + K ^ 2) ^ r)) := by
  obtain ⟨C, hC, H⟩ := C110_mhd hL hnu heta h r
  refine ⟨2 * C, by positivity, fun N hN K hK hKN ub0 h1 h2 => ?_⟩
  obtain ⟨U, hU0, hU, -, -, -⟩ := C92_mhd (padCtx N L nu 0) (rspace_linear N _) eta (rweight N) (rweight_pos N) _ (padCtx_adjoint N L nu 0)
    (padCtx_leibniz N hN L nu 0) hnu heta 0 ub0 h1.1 h2.1 h1.2.1 h2.2.1
  have hb := H N hN K hK hKN 0 U (hU.on T) (hU0 ▸ h1) (hU0 ▸ h2)
  have hcu : ∀ t i, Continuous (u t i) := fun t i => ((h.smooth i).space t).continuous
  have hcb : ∀ t i, Continuous (b t i) := fun t i => ((h.smooth_b i).space t).continuous
  have hfn : ∀ a, Continuous (fn N L a) := fun a => trigField_continuous _ _ _
  have := followsAll_of N hL (κ := Fin 3 ⊕ Fin 3) (fun V : SArr 3 (RModes N) × SArr 3 (RModes N) => Sum.elim V.1 V.2) zero_le_one
    (u := fun t => Sum.elim (u t) (b t)) (fun V W i k => by
      rw [one_mul]
      rcases i with i | i
      · exact fst_part V W i k
      · exact snd_part V W i k) (fun t i => by
      rcases i with i | i
      · exact hcu t i
      · exact hcb t i)
    (C93_periodic.2.2.2.1 (padCtx N L nu 0) (rspace_linear N _) eta 0) hT (hU.on T) (fun t ht => by
      refine le_trans (le_of_eq ?_) (hb t ht)
      rw [← boxMean_add L (continuous_finsetSum _ fun i _ => ((hcu t i).fun_sub (hfn _)).fun_pow 2)
        (continuous_finsetSum _ fun i _ => ((hcb t i).fun_sub (hfn _)).fun_pow 2)]
      simp only [Fintype.sum_sum_type, Sum.elim_inl, Sum.elim_inr])
  rw [hU0, ← mul_assoc] at this
  have hval : (fun (V : SArr 3 (RModes N) × SArr 3 (RModes N)) => Sum.elim (fun i => fn N L (V.1 i)) fun i => fn N L (V.2 i)) =
      fun V i => fn N L (Sum.elim V.1 V.2 i) := by
    funext V i
    rcases i with i | i <;> rfl
  rw [hval]
  exact this

/-- C111, Bq2D: velocity and density. -/
theorem C111_bq {L : Fin 2 → ℝ} (hL : ∀ i, 0 < L i) {nu Ri Pr T : ℝ} (hnu : 0 ≤ nu) (hka : 0 ≤ nu / Pr) (hT : 0 ≤ T)
    {u : ℝ → Fin 2 → (Fin 2 → ℝ) → ℝ} {p rho : ℝ → (Fin 2 → ℝ) → ℝ} (h : ClassicalBq L nu Ri (nu / Pr) T u p rho) (r : ℕ) :
    ∃ C, 0 ≤ C ∧ ∀ (N : Fin 2 → ℕ), (∀ i, 0 < N i) → ∀ K : ℝ, 0 ≤ K → (∀ i, K ≤ Real.pi * N i / L i) →
      ∀ (w0 : SArr 2 (RModes N)) (ur0 : SArr 2 (RModes N) × (RModes N → ℂ)),
        (Solenoidal (scaledWaves N L) ur0.1 ∧ (∀ i, Unmasked N (ur0.1 i)) ∧ ∀ i, IsReal N (ur0.1 i)) → Unmasked N ur0.2 → IsReal N ur0.2 →
      FollowsAll L (fun V => Sum.elim (fun i => fn N L (V.1 i)) fun _ : Unit => fn N L V.2) (fun t => Sum.elim (u t) fun _ => rho t)
        (rhsBq (padCtx N L nu 0) Ri Pr fun r ur => convBq w0 r ur (padCtx N L nu 0).Tp (padCtx N L nu 0).K) ur0 T
        (C * (boxMean L (fun x => ∑ i, (u 0 i x - fn N L (ur0.1 i) x) ^ 2) + boxMean L (fun x => (rho 0 x - fn N L ur0.2 x) ^ 2) +
            1 / (1 + K ^ 2) ^ r)) := by
  obtain ⟨C, hC, H⟩ := C110_bq hL hnu hka h r
  refine ⟨2 * C, by positivity, fun N hN K hK hKN w0 ur0 h1 h2 h3 => ?_⟩
  obtain ⟨U, hU0, hU, -, -, -⟩ := C92_bq (padCtx N L nu 0) (rspace_linear N _) Ri Pr w0 (rweight N) (rweight_pos N) _ (padCtx_adjoint N L nu 0)
    (padCtx_leibniz N hN L nu 0) hnu hka 0 ur0 h1.1 h1.2.1 h2
  have hb := H N hN K hK hKN w0 0 U (hU.on T) (hU0 ▸ h1) (hU0 ▸ h2) (hU0 ▸ h3)
  have hcu : ∀ t i, Continuous (u t i) := fun t i => ((h.smooth i).space t).continuous
  have hcr : ∀ t, Continuous (rho t) := fun t => (h.smooth_rho.space t).continuous
  have hfn : ∀ a, Continuous (fn N L a) := fun a => trigField_continuous _ _ _
  have := followsAll_of (n := 1) N hL (κ := Fin 2 ⊕ Unit) (fun V : SArr 2 (RModes N) × (RModes N → ℂ) => Sum.elim V.1 fun _ => V.2) zero_le_one
    (u := fun t => Sum.elim (u t) fun _ => rho t) (fun V W i k => by
      rw [one_mul]
      rcases i with i | i
      · exact fst_part V W i k
      · exact (norm_le_pi_norm (V.2 - W.2) k).trans (norm_snd_le (V - W))) (fun t i => by
      rcases i with i | i
      · exact hcu t i
      · exact hcr t)
    (C93_periodic.2.2.2.2 (padCtx N L nu 0) (rspace_linear N _) Ri Pr w0 0) hT (hU.on T) (fun t ht => by
      refine le_trans (le_of_eq ?_) (hb t ht)
      rw [← boxMean_add L (continuous_finsetSum _ fun i _ => ((hcu t i).fun_sub (hfn _)).fun_pow 2) (((hcr t).fun_sub (hfn _)).fun_pow 2)]
      simp only [Fintype.sum_sum_type, Sum.elim_inl, Sum.elim_inr, Finset.univ_unique, Finset.sum_singleton])
  rw [hU0, ← mul_assoc] at this
  have hval : (fun (V : SArr 2 (RModes N) × (RModes N → ℂ)) => Sum.elim (fun i => fn N L (V.1 i)) fun _ : Unit => fn N L V.2) =
      fun V i => fn N L (Sum.elim V.1 (fun _ => V.2) i) := by
    funext V i
    rcases i with i | i <;> rfl
  rw [hval]
  exact this

/-! ## VV -/

theorem mem_flowSpace {L : Fin 3 → ℝ} {N : Fin 3 → ℕ} {u : SArr 3 (RModes N)} (h0 : Solenoidal (scaledWaves N L) u) (hm : ∀ i, Unmasked N (u i))
    (hr : ∀ i, IsReal N (u i)) (hz : ∀ i k, (∀ j, waves N j k = 0) → u i k = 0) : u ∈ flowSpace N L := by
  refine ⟨⟨⟨h0, fun k hk i => hz i k hk⟩, fun k k' hk i => ?_⟩, fun k hk i => hm i k hk⟩
  by_cases hneg : ∀ j, waves N j k' = -waves N j k
  · exact hr i k k' hneg
  · push Not at hneg
    obtain ⟨j, hj⟩ := hneg
    obtain ⟨h1, h2⟩ := (opposite_cases N k k' hk j).resolve_left hj
    have e1 : nyquistMask N k = false := by rw [nyquistMask, decide_eq_false_iff_not]; push Not; refine ⟨j, ?_⟩; omega
    have e2 : nyquistMask N k' = false := by rw [nyquistMask, decide_eq_false_iff_not]; push Not; refine ⟨j, ?_⟩; omega
    rw [hm i k e1, hm i k' e2, map_zero]

/-- C111, VV: the semi-discrete equations.  The velocity that VV computes from its vorticity. -/
theorem C111_vv {L : Fin 3 → ℝ} (hL : ∀ i, 0 < L i) {nu T : ℝ} (hnu : 0 ≤ nu) {f : Fin 3 → (Fin 3 → ℝ) → ℝ}
    {u : ℝ → Fin 3 → (Fin 3 → ℝ) → ℝ} {p : ℝ → (Fin 3 → ℝ) → ℝ} (h : ClassicalNS L nu T f u p) (r : ℕ) :
    ∃ C, 0 ≤ C ∧ ∀ (N : Fin 3 → ℕ), (∀ i, 0 < N i) → ∀ K : ℝ, 0 ≤ K → (∀ i, K ≤ Real.pi * N i / L i) →
      ∀ (Source : SArr 3 (RModes N)), Solenoidal (scaledWaves N L) Source → (∀ i, Unmasked N (Source i)) → (∀ i, IsReal N (Source i)) →
      (∀ i k, (∀ j, waves N j k = 0) → Source i k = 0) →
      ∀ (u0 : SArr 3 (RModes N)), Solenoidal (scaledWaves N L) u0 → (∀ i, Unmasked N (u0 i)) → (∀ i, IsReal N (u0 i)) →
      (∀ i k, (∀ j, waves N j k = 0) → u0 i k = 0) →
      ∀ (s : Scratch 3 (RModes N) (Grid fun i => padded (N i))) (rhs w : SArr 3 (RModes N)) (W : ℝ → SArr 3 (RModes N)),
        SolvesOn (rhsVV (padCtx N L nu (curl (scaledWaves N L) Source)) s rhs) T W → W 0 = curl (scaledWaves N L) u0 →
      ∀ t ∈ Set.Icc 0 T, boxMean L (fun x => ∑ i, (u t i x - fn N L (velocityHat w (W t) (K_over_K2 (scaledWaves N L)) i) x) ^ 2) ≤
        C * (boxMean L (fun x => ∑ i, (u 0 i x - fn N L (u0 i) x) ^ 2) + boxMean L (fun x => ∑ i, (f i x - fn N L (Source i) x) ^ 2) +
          1 / (1 + K ^ 2) ^ r) := by
  obtain ⟨C, hC, H⟩ := C109_ns hL hnu h r
  refine ⟨C, hC, fun N hN K hK hKN Source hs hsm hSr hSz u0 h0 hm hr hz s rhs w W hW hW0 t ht => ?_⟩
  have hS := mem_flowSpace hs hsm hSr hSz
  obtain ⟨U, hU0, hU, hUf, -, -, huniq⟩ := C92_vv N (fun i => padded (N i)) hN (fun i => by unfold padded; omega) L (fun i => (hL i).ne') nu hnu Source hS s s 0 rhs u0
    (mem_flowSpace h0 hm hr hz)
  have hb := H N hN K hK hKN Source hs hsm hSr s "Vortex" convVortex (by simp [getConvection]) 0 U (hU.on T) (hU0 ▸ h0) (hU0 ▸ hm) (hU0 ▸ hr) t ht
  rw [huniq T W hW hW0 t ht, C08_velocity_of_curl w (U t) (scaledWaves N L) (hUf t).1.1.1
    (fun k hk => (hUf t).1.1.2 k ((scaled_zero N L (fun i => (hL i).ne') k).1 hk)), ← hU0]
  exact hb

/-- C111, VV: the velocities computed from the vorticities that the integrators return. -/
theorem C111_vv_computed {L : Fin 3 → ℝ} (hL : ∀ i, 0 < L i) {nu T : ℝ} (hnu : 0 ≤ nu) (hT : 0 ≤ T) {f : Fin 3 → (Fin 3 → ℝ) → ℝ}
    {u : ℝ → Fin 3 → (Fin 3 → ℝ) → ℝ} {p : ℝ → (Fin 3 → ℝ) → ℝ} (h : ClassicalNS L nu T f u p) (r : ℕ) :
    ∃ C, 0 ≤ C ∧ ∀ (N : Fin 3 → ℕ), (∀ i, 0 < N i) → ∀ K : ℝ, 0 ≤ K → (∀ i, K ≤ Real.pi * N i / L i) →
      ∀ (Source : SArr 3 (RModes N)), Solenoidal (scaledWaves N L) Source → (∀ i, Unmasked N (Source i)) → (∀ i, IsReal N (Source i)) →
      (∀ i k, (∀ j, waves N j k = 0) → Source i k = 0) →
      ∀ (u0 : SArr 3 (RModes N)), Solenoidal (scaledWaves N L) u0 → (∀ i, Unmasked N (u0 i)) → (∀ i, IsReal N (u0 i)) →
      (∀ i k, (∀ j, waves N j k = 0) → u0 i k = 0) →
      ∀ (s : Scratch 3 (RModes N) (Grid fun i => padded (N i))) (w : SArr 3 (RModes N)),
      FollowsAll L (fun W i => fn N L (velocityHat w W (K_over_K2 (scaledWaves N L)) i)) u
        (rhsVV (padCtx N L nu (curl (scaledWaves N L) Source)) s) (curl (scaledWaves N L) u0) T
        (C * (boxMean L (fun x => ∑ i, (u 0 i x - fn N L (u0 i) x) ^ 2) + boxMean L (fun x => ∑ i, (f i x - fn N L (Source i) x) ^ 2) +
          1 / (1 + K ^ 2) ^ r)) := by
  obtain ⟨C, hC, H⟩ := C111_vv hL hnu h r
  refine ⟨2 * C, by positivity, fun N hN K hK hKN Source hs hsm hSr hSz u0 h0 hm hr hz s w => ?_⟩
  have hS := mem_flowSpace hs hsm hSr hSz
  obtain ⟨U, hU0, -, -, hW, -, -⟩ := C92_vv N (fun i => padded (N i)) hN (fun i => by unfold padded; omega) L (fun i => (hL i).ne') nu hnu Source hS s s 0 0 u0
    (mem_flowSpace h0 hm hr hz)
  have hb := H N hN K hK hKN Source hs hsm hSr hSz u0 h0 hm hr hz s 0 w _ (hW.on T) (by simp only [hU0])
  let A := LinearMap.toContinuousLinearMap (curlMap (K_over_K2 (scaledWaves N L)))
  have hA : ∀ V, velocityHat w V (K_over_K2 (scaledWaves N L)) = A V := fun V => by
    rw [velocityHat, cross2_3d_eq]
    rfl
  have := followsAll_of N hL (fun V => velocityHat w V (K_over_K2 (scaledWaves N L))) (norm_nonneg A) (fun V W i k => by
      have e := self_part (A V) (A W) i k
      rw [one_mul, ← map_sub] at e
      simp only [hA]
      exact e.trans (A.le_opNorm _)) (fun t i => ((h.smooth i).space t).continuous)
    (C93_periodic.2.2.1 (padCtx N L nu (curl (scaledWaves N L) Source)) (rspace_linear N _) s 0) hT (hW.on T) hb
  simp only [hU0] at this
  rwa [← mul_assoc] at this

/-- The starting fields of VV are the flows of `flowSpace`, which contains nonzero flows (Props/FFT.lean, last example); the differential equations have the
solutions shown in the examples of Props/SpectralAccuracy.lean (decaying shear wave, Taylor-Green vortex) and Props/SpectralAccuracyMHD.lean. -/
example {L : Fin 3 → ℝ} {N : Fin 3 → ℕ} (u : SArr 3 (RModes N)) (hu : u ∈ flowSpace N L) :
    Solenoidal (scaledWaves N L) u ∧ (∀ i, Unmasked N (u i)) ∧ (∀ i, IsReal N (u i)) ∧ ∀ i k, (∀ j, waves N j k = 0) → u i k = 0 :=
  ⟨hu.1.1.1, fun i k hk => hu.2 k hk i, fun i k k' h => hu.1.2 k k' (fun j => ⟨0, by rw [h j]; ring⟩) i, fun i k hk => hu.1.1.2 k hk i⟩

/-- The fluid at rest, followed by every integrator: the hypotheses of `C111_ns` hold together. -/
example (N : Fin 3 → ℕ) (hN : ∀ i, 0 < N i) (s : Scratch 3 (RModes N) (Grid fun i => padded (N i)))
    (u : ℝ → Fin 3 → (Fin 3 → ℝ) → ℝ) (p : ℝ → (Fin 3 → ℝ) → ℝ) (h : ClassicalNS (fun _ => 2 * Real.pi) 1 1 0 u p) :
    ∃ b, FollowsAll (fun _ => 2 * Real.pi) (fun V i => fn N (fun _ => 2 * Real.pi) (V i)) u
      (rhsNS (padCtx N (fun _ => 2 * Real.pi) 1 0) fun r u => convVortex s r u (padCtx N (fun _ => 2 * Real.pi) 1 0).Tp (padCtx N (fun _ => 2 * Real.pi) 1 0).K) 0 1 b := by
  obtain ⟨C, -, H⟩ := C111_ns (fun _ => by positivity) zero_le_one zero_le_one h 1
  exact ⟨_, H N hN 0 le_rfl (fun i => by positivity) 0 (Spec.solenoidal _).zero_mem (fun _ _ _ => rfl) (fun _ _ _ _ => by simp) s "Vortex" _
    (by simp [getConvection]) 0 (Spec.solenoidal _).zero_mem (fun _ _ _ => rfl) (fun _ _ _ _ => by simp)⟩

end SpectralDNS.Torus

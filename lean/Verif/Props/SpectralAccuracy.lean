import Verif.Lemmas.GalerkinTime
import Verif.Props.WeakMHD

/-!
# C109: the computed flow converges to the solution of the Navier-Stokes equations

The padded solver NS on any mesh in any box, with any of the four forms of convection, against a smooth solution of the equations themselves.
-/

namespace SpectralDNS.Torus

open Complex Spec Periodic Dealias MeasureTheory
open scoped ContDiff

/-! ## Real coefficients stay real -/

/-- `k'` stores the mode `-k`. -/
def NegMode {n : ℕ} (N : Fin (n + 1) → ℕ) (k k' : RModes N) : Prop := ∀ i, waves N i k' = -waves N i k

theorem pad_realModes {n : ℕ} (N : Fin (n + 1) → ℕ) (L : Fin (n + 1) → ℝ) (hL : ∀ i, 0 < L i) (nu : ℝ) (S : SArr (n + 1) (RModes N)) :
    RealModes (NegMode N) (padCtx N L nu S) :=
  ⟨fun f k k' h _ => rspace_forward_conj N _ f k k' h, fun k k' h i => Or.inl ((scaled_odd N L (fun i => (hL i).ne') k k').2 h i),
    fun k k' h => Or.inl ((scaled_odd N L (fun i => (hL i).ne') k k').2 h)⟩

theorem neg_mask {n : ℕ} (N : Fin (n + 1) → ℕ) (k k' : RModes N) (h : NegMode N k k') : nyquistMask N k' = nyquistMask N k :=
  fft_mask_sym N k k' fun i => by rw [h i]; simp

section
variable {n : ℕ} {L : Fin (n + 1) → ℝ}

theorem pad_herm (N : Fin (n + 1) → ℕ) (hL : ∀ i, 0 < L i) (nu : ℝ) (Source : SArr (n + 1) (RModes N)) (hSr : ∀ i, IsReal N (Source i))
    (conv : SArr (n + 1) (RModes N) → SArr (n + 1) (RModes N) → SArr (n + 1) (RModes N)) (rhs u : SArr (n + 1) (RModes N))
    (hconv : HermOdd (NegMode N) (scaledWaves N L) (conv rhs u)) (hu : Hermitian (NegMode N) u) :
    Hermitian (NegMode N) (rhsNS (padCtx N L nu Source) conv rhs u) :=
  rhsNS_herm (pad_realModes N L hL nu Source) (fun m hm k k' hR => by obtain rfl := Option.some.inj hm; exact neg_mask N k k' hR) _ rhs u
    hconv hu (fun k k' h i => hSr i k k' h)

/-- Solutions of the semi-discrete equations from admissible coefficients of a real field stay such, if the convection does no work. -/
theorem pad_stays (N : Fin (n + 1) → ℕ) (hL : ∀ i, 0 < L i) (nu : ℝ) (hnu : 0 ≤ nu) (Source : SArr (n + 1) (RModes N))
    (hs : Solenoidal (scaledWaves N L) Source) (hsm : ∀ i, Unmasked N (Source i)) (hSr : ∀ i, IsReal N (Source i))
    (conv : SArr (n + 1) (RModes N) → SArr (n + 1) (RModes N) → SArr (n + 1) (RModes N)) (rhs : SArr (n + 1) (RModes N))
    (hq : IsQuad (rhsNS (padCtx N L nu Source) conv rhs)) (hconv : ∀ u, HermOdd (NegMode N) (scaledWaves N L) (conv rhs u))
    (hwork : ∀ u, Solenoidal (scaledWaves N L) u → (∀ i, Unmasked N (u i)) → power (rweight N) u (conv rhs u) = 0)
    {T : ℝ} (U : ℝ → SArr (n + 1) (RModes N)) (hU : SolvesOn (rhsNS (padCtx N L nu Source) conv rhs) T U)
    (h0 : Solenoidal (scaledWaves N L) (U 0)) (hm : ∀ i, Unmasked N (U 0 i)) (hr : ∀ i, IsReal N (U 0 i)) :
    ∀ t ∈ Set.Icc 0 T, Solenoidal (scaledWaves N L) (U t) ∧ (∀ i, Unmasked N (U t i)) ∧ ∀ i, IsReal N (U t i) := by
  set c := padCtx N L nu Source with hc
  have hpow : ∀ u, Solenoidal c.K u → (∀ i, Vanishes c.mask (u i)) → power (rweight N) u (rhsNS c conv rhs u) =
      -c.nu * dissipation (rweight N) c.K u + power (rweight N) u c.Source := fun u h1 h2 =>
    power_rhs c (rweight N) _ rhs u h1 (Vanishes.mask h2) (hwork u h1 h2)
  obtain ⟨V, hV0, hV, hVm⟩ := exists_solves_sub hq (admissible c.K c.mask ⊓ hermitian (NegMode N))
    (fun u hu => ⟨rhsNS_admissible c _ rhs hs hsm u hu.1, pad_herm N hL nu Source hSr conv rhs u (hconv u) hu.2⟩) (powerForm (rweight N))
    (fun u v => by rw [powerForm_apply, powerForm_apply, power_symm]) (fun u hu => by rw [powerForm_apply]; exact power_self_pos (rweight_pos N) u hu)
    le_rfl c.Source (fun u hu => by
      obtain ⟨h1, h2⟩ := mem_admissible.1 hu.1
      rw [powerForm_apply, powerForm_apply, powerForm_apply, hpow u h1 h2, zero_mul]
      have := mul_nonneg hnu (dissipation_nonneg (rweight N) (fun k => (rweight_pos N k).le) c.K u)
      have e : c.nu = nu := rfl
      rw [e]
      linarith) (U 0) ⟨mem_admissible.2 ⟨h0, hm⟩, fun k k' h i => hr i k k' h⟩
  intro t ht
  rw [solves_unique hq hV T U hU hV0.symm t ht]
  obtain ⟨h1, h2⟩ := hVm t
  exact ⟨(mem_admissible.1 h1).1, (mem_admissible.1 h1).2, fun i k k' h => h2 k k' h i⟩

end

theorem ns_pad_stays {L : Fin 3 → ℝ} (N : Fin 3 → ℕ) (hN : ∀ i, 0 < N i) (hL : ∀ i, 0 < L i) (nu : ℝ) (hnu : 0 ≤ nu) (Source : SArr 3 (RModes N))
    (hs : Solenoidal (scaledWaves N L) Source) (hsm : ∀ i, Unmasked N (Source i)) (hSr : ∀ i, IsReal N (Source i))
    (s : Scratch 3 (RModes N) (Grid fun i => padded (N i))) (name : String) (conv) (hname : getConvection name = some conv)
    (rhs : SArr 3 (RModes N)) {T : ℝ} (U : ℝ → SArr 3 (RModes N))
    (hU : SolvesOn (rhsNS (padCtx N L nu Source) (fun r u => conv s r u (padCtx N L nu Source).Tp (padCtx N L nu Source).K) rhs) T U)
    (h0 : Solenoidal (scaledWaves N L) (U 0)) (hm : ∀ i, Unmasked N (U 0 i)) (hr : ∀ i, IsReal N (U 0 i)) :
    ∀ t ∈ Set.Icc 0 T, Solenoidal (scaledWaves N L) (U t) ∧ (∀ i, Unmasked N (U t i)) ∧ ∀ i, IsReal N (U t i) := by
  set c := padCtx N L nu Source with hc
  refine pad_stays N hL nu hnu Source hs hsm hSr (fun r u => conv s r u c.Tp c.K) rhs ?_ ?_ ?_ U hU h0 hm hr
  · exact rhsNS_quad c _ rhs fun i k => conv_quad (rspace_linear N _) c.K name conv hname s rhs i k
  · exact fun u => conv_hermOdd (c := c) (pad_realModes N L hL nu Source) name conv hname s rhs u
  · exact fun u h1 h2 => power_conv c.Tp (rspace_linear N _).additive c.K (rweight N) _ (padCtx_adjoint N L nu Source)
      c.mask name conv hname (fun _ => padCtx_leibniz N hN L nu Source) s rhs u h1 h2

theorem ns2d_pad_stays {L : Fin 2 → ℝ} (N : Fin 2 → ℕ) (hL : ∀ i, 0 < L i) (nu : ℝ) (hnu : 0 ≤ nu) (Source : SArr 2 (RModes N))
    (hs : Solenoidal (scaledWaves N L) Source) (hsm : ∀ i, Unmasked N (Source i)) (hSr : ∀ i, IsReal N (Source i)) (w0 : RModes N → ℂ)
    (rhs : SArr 2 (RModes N)) {T : ℝ} (U : ℝ → SArr 2 (RModes N))
    (hU : SolvesOn (rhsNS (padCtx N L nu Source) (fun r u => conv2DVortex w0 r u (padCtx N L nu Source).Tp (padCtx N L nu Source).K) rhs) T U)
    (h0 : Solenoidal (scaledWaves N L) (U 0)) (hm : ∀ i, Unmasked N (U 0 i)) (hr : ∀ i, IsReal N (U 0 i)) :
    ∀ t ∈ Set.Icc 0 T, Solenoidal (scaledWaves N L) (U t) ∧ (∀ i, Unmasked N (U t i)) ∧ ∀ i, IsReal N (U t i) := by
  refine pad_stays N hL nu hnu Source hs hsm hSr _ rhs (rhsNS_quad _ _ rhs fun i k => conv2D_quad (rspace_linear N _) (scaledWaves N L) w0 rhs i k)
    (fun u k k' hR h i => ?_) (fun u h1 h2 => ?_) U hU h0 hm hr
  · have hf := (pad_realModes N L hL nu Source).forward
    have e := conv2D_eq w0 rhs u (padCtx N L nu Source).Tp (padCtx N L nu Source).K
    fin_cases i
    · change conv2DVortex w0 rhs u (padCtx N L nu Source).Tp (padCtx N L nu Source).K 0 k' =
        (starRingEnd ℂ) (conv2DVortex w0 rhs u (padCtx N L nu Source).Tp (padCtx N L nu Source).K 0 k)
      rw [e.1]
      exact hf _ k k' hR h
    · change conv2DVortex w0 rhs u (padCtx N L nu Source).Tp (padCtx N L nu Source).K 1 k' =
        (starRingEnd ℂ) (conv2DVortex w0 rhs u (padCtx N L nu Source).Tp (padCtx N L nu Source).K 1 k)
      rw [e.2]
      exact hf _ k k' hR h
  · have hadj := padCtx_adjoint N L nu Source
    have hs2 : ∀ F : Fin (1 + 1) → ℝ, ∑ j, F j = F 0 + F 1 := fun F => Fin.sum_univ_two F
    simp only [Spec.power, hs2, (conv2D_eq w0 rhs u _ _).1, (conv2D_eq w0 rhs u _ _).2]
    rw [hadj, hadj, ← mul_add, ← Finset.sum_add_distrib, Finset.sum_eq_zero fun x _ => ?_, mul_zero]
    ring

variable {L : Fin 3 → ℝ}

/-! ## The semi-discrete equations -/

/-- C109.  A smooth solution of the Navier-Stokes equations in the box and any power `r` are given.  There is one constant such that on every mesh,
with any of the four forms of convection and from any start, the mean square error of the solution of the equations that the solver integrates is at most
the constant times (error of the start + error of the force + `(1 + K^2)^-r`), `K` being the smallest of the largest wavenumbers of the mesh. -/
theorem C109_ns (hL : ∀ i, 0 < L i) {nu T : ℝ} (hnu : 0 ≤ nu) {f : Fin 3 → (Fin 3 → ℝ) → ℝ} {u : ℝ → Fin 3 → (Fin 3 → ℝ) → ℝ}
    {p : ℝ → (Fin 3 → ℝ) → ℝ} (h : ClassicalNS L nu T f u p) (r : ℕ) :
    ∃ C, 0 ≤ C ∧ ∀ (N : Fin 3 → ℕ), (∀ i, 0 < N i) → ∀ K : ℝ, 0 ≤ K → (∀ i, K ≤ Real.pi * N i / L i) →
      ∀ (Source : SArr 3 (RModes N)), Solenoidal (scaledWaves N L) Source → (∀ i, Unmasked N (Source i)) → (∀ i, IsReal N (Source i)) →
      ∀ (s : Scratch 3 (RModes N) (Grid fun i => padded (N i))) (name : String) (conv), getConvection name = some conv →
      ∀ (rhs : SArr 3 (RModes N)) (U : ℝ → SArr 3 (RModes N)),
        SolvesOn (rhsNS (padCtx N L nu Source) (fun r u => conv s r u (padCtx N L nu Source).Tp (padCtx N L nu Source).K) rhs) T U →
        Solenoidal (scaledWaves N L) (U 0) → (∀ i, Unmasked N (U 0 i)) → (∀ i, IsReal N (U 0 i)) →
      ∀ t ∈ Set.Icc 0 T, boxMean L (fun x => ∑ i, (u t i x - fn N L (U t i) x) ^ 2) ≤
        C * (boxMean L (fun x => ∑ i, (u 0 i x - fn N L (U 0 i) x) ^ 2) + boxMean L (fun x => ∑ i, (f i x - fn N L (Source i) x) ^ 2) +
          1 / (1 + K ^ 2) ^ r) := by
  obtain ⟨C, hC, H⟩ := galerkin_error hL hnu h r
  refine ⟨C, hC, fun N hN K hK hKN Source hs hsm hSr s name conv hname rhs U hU h0 hm hr => ?_⟩
  have hst := ns_pad_stays N hN hL nu hnu Source hs hsm hSr s name conv hname rhs U hU h0 hm hr
  refine H N hN K hK hKN Source U (fun t => rhsNS (padCtx N L nu Source) (fun r u => conv s r u (padCtx N L nu Source).Tp (padCtx N L nu Source).K) rhs (U t))
    (fun t ht i k => hasDerivWithinAt_pi.1 (hasDerivWithinAt_pi.1 (hU t ht) i) k) hst fun t ht => ?_
  obtain ⟨P, -, -, h3⟩ := C83_momentum N L hN hL nu Source hsm name conv hname s rhs (U t) (hst t ht).1 (hst t ht).2.1
  refine ⟨P, fun v hv hvr => ?_⟩
  rw [← h3 v hv hvr, mean_power N L hN hL _ v (rhsNS_unmasked N L nu Source hsm _ rhs (U t) (hst t ht).2.1).1 hv hvr]

/-! ## The computed states -/

theorem fn_le {n : ℕ} (N : Fin (n + 1) → ℕ) (L : Fin (n + 1) → ℝ) (a : RModes N → ℂ) {e : ℝ} (ha : ∀ k, ‖a k‖ ≤ e) (x : Fin (n + 1) → ℝ) :
    |fn N L a x| ≤ (Fintype.card (RModes N) : ℝ) * (2 * e) := by
  rw [fn_eq]
  refine (Finset.abs_sum_le_sum_abs _ _).trans ((Finset.sum_le_sum fun k _ => ?_).trans_eq (b := ∑ _k : RModes N, 2 * e) (by simp))
  refine (abs_re_le_norm _).trans ?_
  rw [norm_mul, norm_mul, norm_cwave, mul_one, norm_real, Real.norm_eq_abs]
  have hw : |rweight N k| ≤ 2 := by unfold rweight; split <;> norm_num
  exact mul_le_mul hw (ha k) (norm_nonneg _) (by norm_num)

theorem follows_of_within {n : ℕ} {L : Fin (n + 1) → ℝ} (N : Fin (n + 1) → ℕ) (hL : ∀ i, 0 < L i) {u : ℝ → Fin (n + 1) → (Fin (n + 1) → ℝ) → ℝ} (hu : ∀ t i, Continuous (u t i))
    {U : ℝ → SArr (n + 1) (RModes N)} {T b e : ℝ} (hb : ∀ t ∈ Set.Icc 0 T, boxMean L (fun x => ∑ i, (u t i x - fn N L (U t i) x) ^ 2) ≤ b) :
    ∀ (outs : List (SArr (n + 1) (RModes N) × ℝ × ℝ)) (t : ℝ), 0 ≤ t → (∀ o ∈ outs, 0 ≤ o.2.2) → t + (outs.map fun o => o.2.2).sum ≤ T →
      Within U e t outs → FollowsFlow L (fun V i => fn N L (V i)) u (2 * b + 2 * ((n + 1 : ℕ) : ℝ) * ((Fintype.card (RModes N) : ℝ) * (2 * e)) ^ 2) t outs := by
  have hfn : ∀ a, Continuous (fn N L a) := fun a => trigField_continuous _ _ _
  intro outs
  induction outs with
  | nil => intros; trivial
  | cons o outs ih =>
    intro t ht hpos hsum hw
    have h1 := hpos o (by simp)
    rw [List.map_cons, List.sum_cons] at hsum
    have h2 : 0 ≤ (outs.map fun o => o.2.2).sum := List.sum_nonneg fun a ha => by
      obtain ⟨o', ho', rfl⟩ := List.mem_map.1 ha
      exact hpos o' (by simp [ho'])
    refine ⟨?_, ih (t + o.2.2) (by linarith) (fun o' ho' => hpos o' (by simp [ho'])) (by linarith) hw.2⟩
    set t' := t + o.2.2 with ht'
    have h3 := hb t' ⟨by linarith, by linarith⟩
    have hd : ∀ i x, (fn N L (U t' i) x - fn N L (o.1 i) x) ^ 2 ≤ ((Fintype.card (RModes N) : ℝ) * (2 * e)) ^ 2 := fun i x => by
      rw [← fn_sub, ← sq_abs]
      refine pow_le_pow_left₀ (abs_nonneg _) (fn_le N L _ (fun k => ?_) x) 2
      have := hw.1
      rw [norm_sub_rev] at this
      exact (norm_le_pi_norm ((U t' - o.1) i) k).trans ((norm_le_pi_norm (U t' - o.1) i).trans this)
    have c1 : Continuous fun x => ∑ i, (u t' i x - fn N L (U t' i) x) ^ 2 :=
      continuous_finsetSum _ fun i _ => ((hu t' i).fun_sub (hfn _)).fun_pow 2
    refine (boxMean_mono hL (g := fun x => 2 * (∑ i, (u t' i x - fn N L (U t' i) x) ^ 2) + 2 * ((n + 1 : ℕ) : ℝ) * ((Fintype.card (RModes N) : ℝ) * (2 * e)) ^ 2)
      (continuous_finsetSum _ fun i _ => ((hu t' i).fun_sub (hfn _)).fun_pow 2) (by fun_prop) fun x _ => ?_).trans ?_
    · have e1 : ∀ i, (u t' i x - fn N L (o.1 i) x) ^ 2 ≤ 2 * (u t' i x - fn N L (U t' i) x) ^ 2 + 2 * ((Fintype.card (RModes N) : ℝ) * (2 * e)) ^ 2 :=
        fun i => by nlinarith [hd i x, sq_nonneg ((u t' i x - fn N L (U t' i) x) - (fn N L (U t' i) x - fn N L (o.1 i) x))]
      refine (Finset.sum_le_sum fun i _ => e1 i).trans_eq ?_
      rw [Finset.sum_add_distrib, ← Finset.mul_sum]
      simp
      ring
    · rw [boxMean_add L (by fun_prop) (by fun_prop), boxMean_const_mul, boxMean_const hL]
      linarith

/-- C109.  The states computed with the fourth order Runge-Kutta integrator: on each mesh a further error of the order of the eighth power (of the mean
square) of the largest time step. -/
theorem C109_ns_rk4 (hL : ∀ i, 0 < L i) {nu T : ℝ} (hnu : 0 ≤ nu) (hT : 0 ≤ T) {f : Fin 3 → (Fin 3 → ℝ) → ℝ} {u : ℝ → Fin 3 → (Fin 3 → ℝ) → ℝ}
    {p : ℝ → (Fin 3 → ℝ) → ℝ} (h : ClassicalNS L nu T f u p) (r : ℕ) :
    ∃ C, 0 ≤ C ∧ ∀ (N : Fin 3 → ℕ), (∀ i, 0 < N i) → ∀ K : ℝ, 0 ≤ K → (∀ i, K ≤ Real.pi * N i / L i) →
      ∀ (Source : SArr 3 (RModes N)), Solenoidal (scaledWaves N L) Source → (∀ i, Unmasked N (Source i)) → (∀ i, IsReal N (Source i)) →
      ∀ (s : Scratch 3 (RModes N) (Grid fun i => padded (N i))) (name : String) (conv), getConvection name = some conv →
      ∀ (u0 : SArr 3 (RModes N)), Solenoidal (scaledWaves N L) u0 → (∀ i, Unmasked N (u0 i)) → (∀ i, IsReal N (u0 i)) →
      ∀ est : SArr 3 (RModes N) → SArr 3 (RModes N) → SArr 3 (RModes N) → PyF,
      let F := rhsNS (padCtx N L nu Source) fun r u => conv s r u (padCtx N L nu Source).Tp (padCtx N L nu Source).K
      ∃ m, Method.ofName "RK4" = some m ∧ ∃ C' H0 : ℝ, 0 < H0 ∧
      ∀ H, 0 ≤ H → H ≤ H0 → ∀ ds : List ℝ, (∀ d ∈ ds, 0 ≤ d ∧ d ≤ H) → ds.sum ≤ T → ∀ (fuel : ℕ) (rhs : SArr 3 (RModes N)),
        ∃ outs, runOutputs F est (fuel + 1) m 0 ds (getintegrator rhs u0) = some outs ∧ (outs.map fun o => o.2.2) = ds ∧
          FollowsFlow L (fun V i => fn N L (V i)) u (C * (boxMean L (fun x => ∑ i, (u 0 i x - fn N L (u0 i) x) ^ 2) +
            boxMean L (fun x => ∑ i, (f i x - fn N L (Source i) x) ^ 2) + 1 / (1 + K ^ 2) ^ r) + C' * H ^ 8) 0 outs := by
  obtain ⟨C, hC, H⟩ := C109_ns hL hnu h r
  refine ⟨2 * C, by positivity, ?_⟩
  intro N hN K hK hKN Source hs hsm hSr s name conv hname u0 h0 hm hr est F
  obtain ⟨U, hU0, hU, hrk⟩ := C93_ns_rk4 N hN L nu hnu Source hs hsm s name conv hname u0 h0 hm est
  obtain ⟨m, hm', C1, H0, hH0, hrun⟩ := hrk T hT
  refine ⟨m, hm', 2 * ((2 + 1 : ℕ) : ℝ) * ((Fintype.card (RModes N) : ℝ) * (2 * C1)) ^ 2, H0, hH0, fun dt hdt hdt0 ds hds hsum fuel rhs => ?_⟩
  obtain ⟨outs, h1, h2, h3⟩ := hrun dt hdt hdt0 ds hds hsum fuel rhs
  refine ⟨outs, h1, h2, ?_⟩
  have hb := H N hN K hK hKN Source hs hsm hSr s name conv hname 0 U (hU.on T) (hU0 ▸ h0) (hU0 ▸ hm) (hU0 ▸ hr)
  rw [hU0] at hb
  have := follows_of_within N hL (fun t i => ((h.smooth i).space t).continuous) hb outs 0 le_rfl (fun o ho => (hds _ (by
    rw [← h2]
    exact List.mem_map.2 ⟨o, ho, rfl⟩)).1) (by rw [h2]; simpa using hsum) h3
  convert this using 1
  ring

theorem follows_mono {d : ℕ} {S κ : Type*} [Fintype κ] {L : Fin d → ℝ} {val : S → κ → (Fin d → ℝ) → ℝ} {u : ℝ → κ → (Fin d → ℝ) → ℝ} {e e' : ℝ} (h : e ≤ e') :
    ∀ (outs : List (S × ℝ × ℝ)) (t : ℝ), FollowsFlow L val u e t outs → FollowsFlow L val u e' t outs
  | [], _, _ => trivial
  | _ :: outs, _, H => ⟨H.1.trans h, follows_mono h outs _ H.2⟩

/-- C109.  Convergence: for every tolerance, on every sufficiently fine mesh, with a sufficiently accurate start and force and sufficiently small steps,
all computed velocities are within the tolerance of the solution of the Navier-Stokes equations in the mean square. -/
theorem C109_converges (hL : ∀ i, 0 < L i) {nu T : ℝ} (hnu : 0 ≤ nu) (hT : 0 ≤ T) {f : Fin 3 → (Fin 3 → ℝ) → ℝ} {u : ℝ → Fin 3 → (Fin 3 → ℝ) → ℝ}
    {p : ℝ → (Fin 3 → ℝ) → ℝ} (h : ClassicalNS L nu T f u p) (ε : ℝ) (hε : 0 < ε) :
    ∃ δ : ℝ, 0 < δ ∧ ∃ M : ℕ, ∀ (N : Fin 3 → ℕ), (∀ i, 0 < N i ∧ M ≤ N i) →
      ∀ (Source : SArr 3 (RModes N)), Solenoidal (scaledWaves N L) Source → (∀ i, Unmasked N (Source i)) → (∀ i, IsReal N (Source i)) →
      boxMean L (fun x => ∑ i, (f i x - fn N L (Source i) x) ^ 2) ≤ δ →
      ∀ (s : Scratch 3 (RModes N) (Grid fun i => padded (N i))) (name : String) (conv), getConvection name = some conv →
      ∀ (u0 : SArr 3 (RModes N)), Solenoidal (scaledWaves N L) u0 → (∀ i, Unmasked N (u0 i)) → (∀ i, IsReal N (u0 i)) →
      boxMean L (fun x => ∑ i, (u 0 i x - fn N L (u0 i) x) ^ 2) ≤ δ →
      ∀ est : SArr 3 (RModes N) → SArr 3 (RModes N) → SArr 3 (RModes N) → PyF,
      let F := rhsNS (padCtx N L nu Source) fun r u => conv s r u (padCtx N L nu Source).Tp (padCtx N L nu Source).K
      ∃ m, Method.ofName "RK4" = some m ∧ ∃ H0 : ℝ, 0 < H0 ∧
      ∀ ds : List ℝ, (∀ d ∈ ds, 0 ≤ d ∧ d ≤ H0) → ds.sum ≤ T → ∀ (fuel : ℕ) (rhs : SArr 3 (RModes N)),
        ∃ outs, runOutputs F est (fuel + 1) m 0 ds (getintegrator rhs u0) = some outs ∧ (outs.map fun o => o.2.2) = ds ∧
          FollowsFlow L (fun V i => fn N L (V i)) u ε 0 outs := by
  obtain ⟨C, hC, H⟩ := C109_ns_rk4 hL hnu hT h 1
  obtain ⟨δ, hδ⟩ : ∃ δ, δ = ε / (6 * (C + 1)) := ⟨_, rfl⟩
  have hδ0 : 0 < δ := by rw [hδ]; positivity
  have hCδ : C * (δ + δ + δ) ≤ ε / 2 := by
    have : (C + 1) * (6 * δ) = ε := by rw [hδ]; field_simp
    nlinarith
  obtain ⟨M, hM⟩ := exists_nat_ge ((∑ i, L i) / (δ * Real.pi))
  refine ⟨δ, hδ0, M, ?_⟩
  intro N hN Source hs hsm hSr hf s name conv hname u0 h0 hm hr hi est F
  have hpi := Real.pi_pos
  obtain ⟨m, hm', C', H0, hH0, hrun⟩ := H N (fun i => (hN i).1) (1 / δ) (by positivity) (fun i => by
    have h1 : L i ≤ ∑ i, L i := Finset.single_le_sum (fun i _ => (hL i).le) (Finset.mem_univ i)
    have h2 : (∑ i, L i) / (δ * Real.pi) ≤ N i := hM.trans (by exact_mod_cast (hN i).2)
    rw [div_le_iff₀ (by positivity)] at h2
    rw [div_le_div_iff₀ hδ0 (hL i)]
    linarith) Source hs hsm hSr s name conv hname u0 h0 hm hr est
  have hk : 1 / (1 + (1 / δ) ^ 2) ^ 1 ≤ δ := by
    rw [pow_one, div_le_iff₀ (by positivity)]
    have : δ * (1 + (1 / δ) ^ 2) = δ + 1 / δ := by field_simp
    rw [this]
    have h2 : δ * (1 / δ) = 1 := by field_simp
    nlinarith [sq_nonneg (δ - 1 / δ), (by positivity : 0 < 1 / δ)]
  have hA : 0 < |C'| + 1 := by positivity
  refine ⟨m, hm', min H0 (min 1 (ε / (2 * (|C'| + 1)))), by positivity, fun ds hds hsum fuel rhs => ?_⟩
  obtain ⟨outs, h1, h2, h3⟩ := hrun _ (by positivity) (min_le_left _ _) ds hds hsum fuel rhs
  refine ⟨outs, h1, h2, follows_mono ?_ outs 0 h3⟩
  set η := min H0 (min 1 (ε / (2 * (|C'| + 1)))) with hη
  have e0 : 0 < η := by positivity
  have e1 : η ≤ 1 := (min_le_right _ _).trans (min_le_left _ _)
  have e2 : η ≤ ε / (2 * (|C'| + 1)) := (min_le_right _ _).trans (min_le_right _ _)
  have e3 : η ^ 8 ≤ η := pow_le_of_le_one e0.le e1 (by norm_num)
  have e4 : C' * η ^ 8 ≤ ε / 2 := by
    rw [le_div_iff₀ (by positivity)] at e2
    have a1 : C' * η ^ 8 ≤ |C'| * η ^ 8 := mul_le_mul_of_nonneg_right (le_abs_self _) (by positivity)
    have a2 : |C'| * η ^ 8 ≤ |C'| * η := mul_le_mul_of_nonneg_left e3 (abs_nonneg _)
    linarith
  have e5 := mul_le_mul_of_nonneg_left (add_le_add (add_le_add hi hf) hk) hC
  linarith

/-- Error of the truncated series of a smooth solenoidal field. -/
theorem proj_start (hL : ∀ i, 0 < L i) {g : Fin 3 → (Fin 3 → ℝ) → ℝ} (hg : ∀ i, ContDiff ℝ ∞ (g i)) (hp : ∀ i, BoxPeriodic L (g i))
    (hd : ∀ x, ∑ i, pderiv i (g i) x = 0) (r : ℕ) : ∃ C, 0 ≤ C ∧ ∀ (N : Fin 3 → ℕ), (∀ i, 0 < N i) → ∀ K : ℝ, 0 ≤ K → (∀ i, K ≤ Real.pi * N i / L i) →
      Solenoidal (scaledWaves N L) (fun i => proj N L (g i)) ∧ (∀ i, Unmasked N (proj N L (g i))) ∧ (∀ i, IsReal N (proj N L (g i))) ∧
        boxMean L (fun x => ∑ i, (g i x - fn N L (proj N L (g i)) x) ^ 2) ≤ C / (1 + K ^ 2) ^ r := by
  obtain ⟨C1, hC1, c1⟩ := exists_common (P := fun (i : Fin 3) B => ∀ m, (1 + ∑ j, (kappa L m j) ^ 2) ^ (3 + r) * ‖coef L (g i) m‖ ≤ B)
    (fun i a b hab H m => (H m).trans hab) fun i => by
      obtain ⟨B, h0, h1⟩ := coef_decay hL (g := fun _ => g i) ((hg i).comp contDiff_snd) (fun _ => hp i) (3 + r) 0
      exact ⟨B, h0, h1 0 ⟨le_rfl, le_rfl⟩⟩
  refine ⟨3 * (C1 * ∑' m, majorant L m) ^ 2, by positivity, fun N hN K hK hKN => ?_⟩
  refine ⟨proj_solenoidal N L hL (fun i => (hg i).of_le (by exact_mod_cast le_top)) hp hd, fun i => proj_unmasked N L _,
    fun i => proj_real N L _, ?_⟩
  have hfn : ∀ a, Continuous (fn N L a) := fun a => trigField_continuous _ _ _
  rw [boxMean_sum L _ fun i => ((hg i).continuous.fun_sub (hfn _)).fun_pow 2]
  have h1 : (1 : ℝ) ≤ (1 + K ^ 2) ^ r := one_le_pow₀ (by nlinarith)
  refine (Finset.sum_le_sum (g := fun _ => (C1 * ∑' m, majorant L m) ^ 2 / (1 + K ^ 2) ^ r) fun i _ => ?_).trans_eq ?_
  · refine (proj_error N L hN hL (hg i).continuous (hp i) (c1 i) hK hKN).trans ?_
    have e : (C1 / (1 + K ^ 2) ^ r * ∑' m, majorant L m) ^ 2 = (C1 * ∑' m, majorant L m) ^ 2 / (1 + K ^ 2) ^ r / (1 + K ^ 2) ^ r := by
      field_simp
    rw [e]
    exact div_le_self (by positivity) h1
  · simp
    ring

/-- C109.  Starts and forces as the theorems ask for exist on every mesh: the truncated Fourier series of a smooth solenoidal field, with an error below
every power of the mesh size. -/
theorem C109_start (hL : ∀ i, 0 < L i) {g : Fin 3 → (Fin 3 → ℝ) → ℝ} (hg : ∀ i, ContDiff ℝ ∞ (g i)) (hp : ∀ i, BoxPeriodic L (g i))
    (hd : ∀ x, ∑ i, pderiv i (g i) x = 0) (r : ℕ) : ∃ C, 0 ≤ C ∧ ∀ (N : Fin 3 → ℕ), (∀ i, 0 < N i) → ∀ K : ℝ, 0 ≤ K → (∀ i, K ≤ Real.pi * N i / L i) →
      ∃ a : SArr 3 (RModes N), Solenoidal (scaledWaves N L) a ∧ (∀ i, Unmasked N (a i)) ∧ (∀ i, IsReal N (a i)) ∧
        boxMean L (fun x => ∑ i, (g i x - fn N L (a i) x) ^ 2) ≤ C / (1 + K ^ 2) ^ r := by
  obtain ⟨C, hC, H⟩ := proj_start hL hg hp hd r
  exact ⟨C, hC, fun N hN K hK hKN => ⟨_, H N hN K hK hKN⟩⟩

/-! ## Two dimensions -/

/-- C109, NS2D. -/
theorem C109_ns2d {L : Fin 2 → ℝ} (hL : ∀ i, 0 < L i) {nu T : ℝ} (hnu : 0 ≤ nu) {f : Fin 2 → (Fin 2 → ℝ) → ℝ} {u : ℝ → Fin 2 → (Fin 2 → ℝ) → ℝ}
    {p : ℝ → (Fin 2 → ℝ) → ℝ} (h : ClassicalNS L nu T f u p) (r : ℕ) :
    ∃ C, 0 ≤ C ∧ ∀ (N : Fin 2 → ℕ), (∀ i, 0 < N i) → ∀ K : ℝ, 0 ≤ K → (∀ i, K ≤ Real.pi * N i / L i) →
      ∀ (Source : SArr 2 (RModes N)), Solenoidal (scaledWaves N L) Source → (∀ i, Unmasked N (Source i)) → (∀ i, IsReal N (Source i)) →
      ∀ (w0 : RModes N → ℂ) (rhs : SArr 2 (RModes N)) (U : ℝ → SArr 2 (RModes N)),
        SolvesOn (rhsNS (padCtx N L nu Source) (fun r u => conv2DVortex w0 r u (padCtx N L nu Source).Tp (padCtx N L nu Source).K) rhs) T U →
        Solenoidal (scaledWaves N L) (U 0) → (∀ i, Unmasked N (U 0 i)) → (∀ i, IsReal N (U 0 i)) →
      ∀ t ∈ Set.Icc 0 T, boxMean L (fun x => ∑ i, (u t i x - fn N L (U t i) x) ^ 2) ≤
        C * (boxMean L (fun x => ∑ i, (u 0 i x - fn N L (U 0 i) x) ^ 2) + boxMean L (fun x => ∑ i, (f i x - fn N L (Source i) x) ^ 2) +
          1 / (1 + K ^ 2) ^ r) := by
  obtain ⟨C, hC, H⟩ := galerkin_error hL hnu h r
  refine ⟨C, hC, fun N hN K hK hKN Source hs hsm hSr w0 rhs U hU h0 hm hr => ?_⟩
  have hst := ns2d_pad_stays N hL nu hnu Source hs hsm hSr w0 rhs U hU h0 hm hr
  refine H N hN K hK hKN Source U (fun t => rhsNS (padCtx N L nu Source) (fun r u => conv2DVortex w0 r u (padCtx N L nu Source).Tp (padCtx N L nu Source).K) rhs (U t))
    (fun t ht i k => hasDerivWithinAt_pi.1 (hasDerivWithinAt_pi.1 (hU t ht) i) k) hst fun t ht => ?_
  obtain ⟨P, -, h3⟩ := C83_two_dimensions N L hN hL nu Source hsm w0 rhs (U t) (hst t ht).2.1
  refine ⟨P, fun v hv hvr => ?_⟩
  rw [← h3 v hv hvr, mean_power N L hN hL _ v (rhsNS_unmasked N L nu Source hsm _ rhs (U t) (hst t ht).2.1).1 hv hvr]

/-- C109, NS2D with the fourth order Runge-Kutta integrator. -/
theorem C109_ns2d_rk4 {L : Fin 2 → ℝ} (hL : ∀ i, 0 < L i) {nu T : ℝ} (hnu : 0 ≤ nu) (hT : 0 ≤ T) {f : Fin 2 → (Fin 2 → ℝ) → ℝ}
    {u : ℝ → Fin 2 → (Fin 2 → ℝ) → ℝ} {p : ℝ → (Fin 2 → ℝ) → ℝ} (h : ClassicalNS L nu T f u p) (r : ℕ) :
    ∃ C, 0 ≤ C ∧ ∀ (N : Fin 2 → ℕ), (∀ i, 0 < N i) → ∀ K : ℝ, 0 ≤ K → (∀ i, K ≤ Real.pi * N i / L i) →
      ∀ (Source : SArr 2 (RModes N)), Solenoidal (scaledWaves N L) Source → (∀ i, Unmasked N (Source i)) → (∀ i, IsReal N (Source i)) →
      ∀ (w0 : RModes N → ℂ) (u0 : SArr 2 (RModes N)), Solenoidal (scaledWaves N L) u0 → (∀ i, Unmasked N (u0 i)) → (∀ i, IsReal N (u0 i)) →
      ∀ est : SArr 2 (RModes N) → SArr 2 (RModes N) → SArr 2 (RModes N) → PyF,
      let F := rhsNS (padCtx N L nu Source) fun r u => conv2DVortex w0 r u (padCtx N L nu Source).Tp (padCtx N L nu Source).K
      ∃ m, Method.ofName "RK4" = some m ∧ ∃ C' H0 : ℝ, 0 < H0 ∧
      ∀ H, 0 ≤ H → H ≤ H0 → ∀ ds : List ℝ, (∀ d ∈ ds, 0 ≤ d ∧ d ≤ H) → ds.sum ≤ T → ∀ (fuel : ℕ) (rhs : SArr 2 (RModes N)),
        ∃ outs, runOutputs F est (fuel + 1) m 0 ds (getintegrator rhs u0) = some outs ∧ (outs.map fun o => o.2.2) = ds ∧
          FollowsFlow L (fun V i => fn N L (V i)) u (C * (boxMean L (fun x => ∑ i, (u 0 i x - fn N L (u0 i) x) ^ 2) +
            boxMean L (fun x => ∑ i, (f i x - fn N L (Source i) x) ^ 2) + 1 / (1 + K ^ 2) ^ r) + C' * H ^ 8) 0 outs := by
  obtain ⟨C, hC, H⟩ := C109_ns2d hL hnu h r
  refine ⟨2 * C, by positivity, ?_⟩
  intro N hN K hK hKN Source hs hsm hSr w0 u0 h0 hm hr est F
  obtain ⟨U, hU0, hU, -, -, -⟩ := C92_ns2d (padCtx N L nu Source) (rspace_linear N _) w0 (rweight N) (rweight_pos N) _ (padCtx_adjoint N L nu Source)
    hnu hs hsm 0 u0 h0 hm
  have hrk := (C93_periodic.2.1 (padCtx N L nu Source) (rspace_linear N _) w0 0).fixed est T hT U (hU.on T) "RK4" 4 (by simp)
  rw [hU0] at hrk
  obtain ⟨m, hm', C1, H0, hH0, hrun⟩ := hrk
  refine ⟨m, hm', 2 * ((1 + 1 : ℕ) : ℝ) * ((Fintype.card (RModes N) : ℝ) * (2 * C1)) ^ 2, H0, hH0, fun dt hdt hdt0 ds hds hsum fuel rhs => ?_⟩
  obtain ⟨outs, h1, h2, h3⟩ := hrun dt hdt hdt0 ds hds hsum fuel rhs
  refine ⟨outs, h1, h2, ?_⟩
  have hb := H N hN K hK hKN Source hs hsm hSr w0 0 U (hU.on T) (hU0 ▸ h0) (hU0 ▸ hm) (hU0 ▸ hr)
  rw [hU0] at hb
  have := follows_of_within N hL (fun t i => ((h.smooth i).space t).continuous) hb outs 0 le_rfl (fun o ho => (hds _ (by
    rw [← h2]
    exact List.mem_map.2 ⟨o, ho, rfl⟩)).1) (by rw [h2]; simpa using hsum) h3
  convert this using 1
  ring

/-- A solution that meets the hypotheses: the decaying shear flow `(0, 0, exp(-nu t) cos x_0)`. -/
example (nu T : ℝ) : ClassicalNS (fun _ : Fin 3 => 2 * Real.pi) nu T 0 (fun t i x => if i = 2 then Real.exp (-nu * t) * Real.cos (x 0) else 0) 0 := by
  have hd : ∀ (c : ℝ) (j : Fin 3) (x : Fin 3 → ℝ), pderiv j (fun x => c * Real.cos (x 0)) x = if j = 0 then -c * Real.sin (x 0) else 0 := fun c j x => by
    unfold pderiv
    split_ifs with hj
    · subst hj
      simp
    · simp [Function.update_of_ne (Ne.symm hj)]
  have hs : ∀ (c : ℝ) (j : Fin 3) (x : Fin 3 → ℝ), pderiv j (fun x => c * Real.sin (x 0)) x = if j = 0 then c * Real.cos (x 0) else 0 := fun c j x => by
    unfold pderiv
    split_ifs with hj
    · subst hj
      simp
    · simp [Function.update_of_ne (Ne.symm hj)]
  have hz : ∀ (j : Fin 3) (c : ℝ) (x : Fin 3 → ℝ), pderiv j (fun _ => c) x = 0 := fun j c x => by simp [pderiv]
  refine ⟨fun i => ?_, fun t => contDiff_const, fun t i j x => ?_, fun t j x => rfl, fun i => continuous_const, fun t _ x => ?_, fun t _ x i => ?_⟩
  · by_cases hi : i = 2
    · simp only [hi, if_true, SmoothField]
      fun_prop
    · simp only [hi, if_false, SmoothField]
      exact contDiff_const
  · by_cases hj : j = 0
    · subst hj
      simp
    · simp [Ne.symm hj]
  · simp [Fin.sum_univ_three, hd, hz]
  · by_cases hi : i = 2
    · subst hi
      have e1 : (fun y => pderiv (0 : Fin 3) (fun x => Real.exp (-nu * t) * Real.cos (x 0)) y) = fun y : Fin 3 → ℝ => -Real.exp (-nu * t) * Real.sin (y 0) := by
        funext y
        rw [hd, if_pos rfl]
      have e2 : ∀ j : Fin 3, j ≠ 0 → (fun y => pderiv j (fun x => Real.exp (-nu * t) * Real.cos (x 0)) y) = fun _ : Fin 3 → ℝ => 0 := fun j hj => by
        funext y
        rw [hd, if_neg hj]
      have e3 : HasDerivAt (fun s => Real.exp (-nu * s) * Real.cos (x 0)) (Real.exp (-nu * t) * (-nu) * Real.cos (x 0)) t := by
        have := ((hasDerivAt_id t).const_mul (-nu)).exp.mul_const (Real.cos (x 0))
        simpa using this
      have e4 := hs (-Real.exp (-nu * t)) 0 x
      rw [← e1, if_pos rfl] at e4
      have e5 : ∀ j : Fin 3, j ≠ 0 → pderiv j (pderiv j (fun x => Real.exp (-nu * t) * Real.cos (x 0))) x = 0 := fun j hj => by
        have := hz j 0 x
        rwa [← e2 j hj] at this
      simp only [if_true]
      rw [e3.deriv, Fin.sum_univ_three, Fin.sum_univ_three, e5 1 (by decide), e5 2 (by decide)]
      change _ = _ + nu * (pderiv 0 (fun y => pderiv 0 (fun x => Real.exp (-nu * t) * Real.cos (x 0)) y) x + 0 + 0) + _
      rw [e4]
      have e6 : pderiv (2 : Fin 3) (0 : (Fin 3 → ℝ) → ℝ) x = 0 := hz 2 0 x
      simp [hd, e6]
      ring
    · have e6 : pderiv i (0 : (Fin 3 → ℝ) → ℝ) x = 0 := hz i 0 x
      have e7 : ∀ j : Fin 3, pderiv j (fun _ : Fin 3 → ℝ => (0 : ℝ)) = fun _ => 0 := fun j => funext fun y => hz j 0 y
      simp [hi, e6, e7]

/-- A solution with convection and pressure: the two-dimensional Taylor-Green vortex of demo/TG2D.py. -/
theorem tg2D_classical (nu T : ℝ) : ClassicalNS (fun _ : Fin 2 => 2 * Real.pi) nu T 0
    (fun t => ![fun x => Real.exp (-2 * nu * t) * (Real.sin (x 0) * Real.cos (x 1)), fun x => -Real.exp (-2 * nu * t) * (Real.cos (x 0) * Real.sin (x 1))])
    (fun t x => Real.exp (-2 * nu * t) ^ 2 / 4 * (Real.cos (2 * x 0) + Real.cos (2 * x 1))) := by
  have hd : ∀ (f g f' g' : ℝ → ℝ) (_ : ∀ s, HasDerivAt f (f' s) s) (_ : ∀ s, HasDerivAt g (g' s) s) (c : ℝ),
      (pderiv (0 : Fin 2) fun x => c * (f (x 0) * g (x 1))) = (fun x => c * (f' (x 0) * g (x 1))) ∧
      (pderiv (1 : Fin 2) fun x => c * (f (x 0) * g (x 1))) = fun x => c * (f (x 0) * g' (x 1)) := fun f g f' g' hf hg c => by
    constructor <;> funext x <;> unfold pderiv
    · simpa using (((hf (x 0)).mul_const (g (x 1))).const_mul c).deriv
    · simpa using (((hg (x 1)).const_mul (f (x 0))).const_mul c).deriv
  have hc : ∀ s, HasDerivAt (fun s => -Real.sin s) (-Real.cos s) s := fun s => (Real.hasDerivAt_sin s).neg
  have hsc := hd Real.sin Real.cos Real.cos (fun s => -Real.sin s) Real.hasDerivAt_sin Real.hasDerivAt_cos
  have hcs := hd Real.cos Real.sin (fun s => -Real.sin s) Real.cos Real.hasDerivAt_cos Real.hasDerivAt_sin
  have h1 := hd Real.cos Real.cos (fun s => -Real.sin s) (fun s => -Real.sin s) Real.hasDerivAt_cos Real.hasDerivAt_cos
  have h2 := hd Real.sin (fun s => -Real.sin s) Real.cos (fun s => -Real.cos s) Real.hasDerivAt_sin hc
  have h3 := hd (fun s => -Real.sin s) Real.sin (fun s => -Real.cos s) Real.cos hc Real.hasDerivAt_sin
  have hp : ∀ (c : ℝ) (x : Fin 2 → ℝ), pderiv (0 : Fin 2) (fun x => c / 4 * (Real.cos (2 * x 0) + Real.cos (2 * x 1))) x = -(c * (Real.sin (x 0) * Real.cos (x 0))) ∧
      pderiv (1 : Fin 2) (fun x => c / 4 * (Real.cos (2 * x 0) + Real.cos (2 * x 1))) x = -(c * (Real.sin (x 1) * Real.cos (x 1))) := fun c x => by
    have e : ∀ a b : ℝ, HasDerivAt (fun s => c / 4 * (Real.cos (2 * s) + b)) (-(c * (Real.sin a * Real.cos a))) a := fun a b => by
      have := ((((hasDerivAt_id a).const_mul 2).cos.add_const b).const_mul (c / 4))
      refine this.congr_deriv ?_
      simp only [id, Real.sin_two_mul]
      ring
    constructor <;> unfold pderiv
    · simpa using (e (x 0) (Real.cos (2 * x 1))).deriv
    · have := (e (x 1) (Real.cos (2 * x 0))).deriv
      rw [← this]
      congr 1
      funext s
      simp [add_comm]
  have ht : ∀ (a t : ℝ), _root_.deriv (fun s => Real.exp (-2 * nu * s) * a) t = Real.exp (-2 * nu * t) * (-2 * nu) * a := fun a t => by
    have := ((hasDerivAt_id t).const_mul (-2 * nu)).exp.mul_const a
    simpa using this.deriv
  have hs2 : ∀ F : Fin 2 → ℝ, ∑ j, F j = F 0 + F 1 := fun F => Fin.sum_univ_two F
  refine ⟨fun i => ?_, fun t => by fun_prop, fun t i j x => ?_, fun t j x => ?_, fun i => continuous_const, fun t _ x => ?_, fun t _ x i => ?_⟩
  · fin_cases i <;> simp only [SmoothField] <;> simp <;> fun_prop
  · fin_cases i <;> fin_cases j <;> simp
  · fin_cases j <;> simp [mul_add, Real.cos_add_two_pi, show ∀ a : ℝ, 2 * a + 2 * (2 * Real.pi) = 2 * a + 2 * Real.pi + 2 * Real.pi from fun a => by ring]
  · rw [hs2]
    simp only [Matrix.cons_val_zero, Matrix.cons_val_one, (hsc _).1, (hcs _).2]
    ring
  · have e1 := Real.sin_sq_add_cos_sq (x 0)
    have e2 := Real.sin_sq_add_cos_sq (x 1)
    have z : ∀ i : Fin 2, (0 : Fin 2 → (Fin 2 → ℝ) → ℝ) i x = 0 := fun i => rfl
    fin_cases i
    · change _root_.deriv (fun s => Real.exp (-2 * nu * s) * (Real.sin (x 0) * Real.cos (x 1))) t = _
      rw [ht, hs2, hs2]
      simp only [Matrix.cons_val_zero, Matrix.cons_val_one, Fin.zero_eta, (hsc _).1, (hsc _).2, (h1 _).1, (h2 _).2, (hp _ x).1, z]
      linear_combination (Real.exp (-2 * nu * t) ^ 2 * Real.sin (x 0) * Real.cos (x 0)) * e2
    · change _root_.deriv (fun s => -Real.exp (-2 * nu * s) * (Real.cos (x 0) * Real.sin (x 1))) t = _
      have e3 := ht (-(Real.cos (x 0) * Real.sin (x 1))) t
      simp only [mul_neg, ← neg_mul] at e3 ⊢
      rw [show (fun s => -Real.exp (-2 * nu * s) * (Real.cos (x 0) * Real.sin (x 1))) = fun s => Real.exp (-2 * nu * s) * -(Real.cos (x 0) * Real.sin (x 1)) from
        funext fun s => by ring, ht, hs2, hs2]
      simp only [Matrix.cons_val_zero, Matrix.cons_val_one, Fin.mk_one, (hcs _).1, (hcs _).2, (h1 _).2, (h3 _).1, (hp _ x).2, z]
      linear_combination (Real.exp (-2 * nu * t) ^ 2 * Real.sin (x 1) * Real.cos (x 1)) * e1

end SpectralDNS.Torus

import Verif.Lemmas.Fourier
import Verif.Props.Convection

/-!
# The solvers with the actual discrete Fourier transforms (C09, C15)

The hypotheses on the transforms made in `Props/VV.lean` and `Props/Reality.lean` are discharged for the real-to-complex
transforms on every grid, collocated or padded.
-/

namespace SpectralDNS.Periodic

open Complex

variable {n : ℕ}

/-- The context of a solver on a grid with `N` modes and `M` quadrature points in a box with sides `L`. -/
noncomputable def fftCtx (N M : Fin (n + 1) → ℕ) (L : Fin (n + 1) → ℝ) (nu : ℝ) (mask : Option (RModes N → Bool))
    (Source : SArr (n + 1) (RModes N)) : Ctx (n + 1) (RModes N) (Grid M) :=
  ⟨rspace N M, scaledWaves N L, nu, mask, Source⟩

theorem opposite_cases (N : Fin (n + 1) → ℕ) (k k' : RModes N) (h : Opposite N k k') (i : Fin (n + 1)) :
    waves N i k' = -waves N i k ∨ (waves N i k' = waves N i k ∧ (2 * waves N i k = N i ∨ 2 * waves N i k = -(N i : ℤ))) := by
  have h1 := waves_bounds N k i
  have h2 := waves_bounds N k' i
  obtain ⟨q, hq⟩ := h i
  by_cases h0 : waves N i k + waves N i k' = 0
  · left; omega
  · right
    rcases Nat.eq_zero_or_pos (N i) with hz | hpos
    · exfalso; apply h0; rw [hq, hz]; simp
    have hpos' : (0 : ℤ) < N i := by exact_mod_cast hpos
    have hq1 : q ≤ 1 := by by_contra hc; nlinarith
    have hq2 : -1 ≤ q := by by_contra hc; nlinarith
    have hq0 : q ≠ 0 := by rintro rfl; exact h0 (by rw [hq, mul_zero])
    rcases (by omega : q = 1 ∨ q = -1) with rfl | rfl <;> omega

theorem scaled_odd (N : Fin (n + 1) → ℕ) (L : Fin (n + 1) → ℝ) (hL : ∀ i, L i ≠ 0) (k k' : RModes N) :
    (∀ i, scaledWaves N L i k' = -scaledWaves N L i k) ↔ ∀ i, waves N i k' = -waves N i k := by
  refine forall_congr' fun i => ?_
  have h : (2 * Real.pi / L i) ≠ 0 := div_ne_zero (by positivity) (hL i)
  simp only [scaledWaves, ← mul_neg]
  rw [mul_right_inj' h]
  exact_mod_cast Iff.rfl

theorem rspace_forward_conj (N M : Fin (n + 1) → ℕ) (f : Grid M → ℝ) (k k' : RModes N)
    (h : ∀ i, waves N i k' = -waves N i k) : (rspace N M).forward f k' = (starRingEnd ℂ) ((rspace N M).forward f k) := by
  simp only [rspace, dft, map_mul, map_div₀, map_one, map_natCast, map_sum, conj_ofReal]
  congr 1
  refine Finset.sum_congr rfl fun x _ => ?_
  congr 2
  rw [conj_kernel, kernel]
  congr 2
  exact Finset.sum_congr rfl fun i _ => by rw [h i]

/-- The hypotheses of C15 hold on every grid with the Nyquist mask. -/
theorem fft_realModes (N M : Fin (n + 1) → ℕ) (L : Fin (n + 1) → ℝ) (hL : ∀ i, L i ≠ 0) (nu : ℝ)
    (S : SArr (n + 1) (RModes N)) : RealModes (Opposite N) (fftCtx N M L nu (some (nyquistMask N)) S) where
  forward f k k' _ h := rspace_forward_conj N M f k k' ((scaled_odd N L hL k k').1 h)
  sign k k' h i := by
    rcases opposite_cases N k k' h i with h | ⟨h, -⟩
    · left; simp [fftCtx, scaledWaves, h]
    · right; simp [fftCtx, scaledWaves, h]
  odd k k' h := by
    by_cases hc : ∀ i, waves N i k' = -waves N i k
    · left; exact (scaled_odd N L hL k k').2 hc
    · right
      push Not at hc
      obtain ⟨i, hi⟩ := hc
      obtain ⟨h1, h2⟩ := (opposite_cases N k k' h i).resolve_left hi
      refine ⟨nyquistMask N, rfl, ?_, ?_⟩ <;> rw [nyquistMask, decide_eq_false_iff_not] <;> push Not <;> refine ⟨i, ?_⟩ <;> omega

/-- ... and without a mask on grids with odd sizes. -/
theorem fft_realModes_odd (N M : Fin (n + 1) → ℕ) (hN : ∀ i, Odd (N i)) (L : Fin (n + 1) → ℝ) (hL : ∀ i, L i ≠ 0) (nu : ℝ)
    (S : SArr (n + 1) (RModes N)) : RealModes (Opposite N) (fftCtx N M L nu none S) := by
  have key : ∀ k k', Opposite N k k' → ∀ i, waves N i k' = -waves N i k := by
    intro k k' h i
    obtain ⟨m, hm⟩ := hN i
    rcases opposite_cases N k k' h i with h | ⟨-, h⟩
    · exact h
    · exfalso
      rw [hm] at h
      push_cast at h
      omega
  exact ⟨fun f k k' h _ => rspace_forward_conj N M f k k' (key k k' h),
    fun k k' h i => Or.inl ((scaled_odd N L hL k k').2 (key k k' h) i),
    fun k k' h => Or.inl ((scaled_odd N L hL k k').2 (key k k' h))⟩

theorem fft_mask_sym (N : Fin (n + 1) → ℕ) (k k' : RModes N) (h : Opposite N k k') : nyquistMask N k' = nyquistMask N k := by
  have : (∀ i, 2 * waves N i k' ≠ N i ∧ 2 * waves N i k' ≠ -(N i : ℤ)) ↔ ∀ i, 2 * waves N i k ≠ N i ∧ 2 * waves N i k ≠ -(N i : ℤ) := by
    refine forall_congr' fun i => ?_
    rcases opposite_cases N k k' h i with h | ⟨h, -⟩ <;> omega
  simp only [nyquistMask, this]

/-! ## C15 -/

/-- C15, NS on any grid, any padding, Nyquist modes masked (the default): coefficients of real fields stay so. -/
theorem C15_NS_fft (N M : Fin 3 → ℕ) (L : Fin 3 → ℝ) (hL : ∀ i, L i ≠ 0) (nu : ℝ) (S : SArr 3 (RModes N))
    (hS : Spec.Hermitian (Opposite N) S) (name : String) (conv) (hc : getConvection name = some conv)
    (s : Scratch 3 (RModes N) (Grid M)) (est : SArr 3 (RModes N) → SArr 3 (RModes N) → SArr 3 (RModes N) → PyF) (fuel : ℕ)
    (m : Method) (ds : List ℝ) (tstep : ℕ) (rhs u : SArr 3 (RModes N)) (hu : Spec.Hermitian (Opposite N) u)
    (c' : Closure (SArr 3 (RModes N)))
    (h : runSteps (rhsNS (fftCtx N M L nu (some (nyquistMask N)) S) fun r u => conv s r u (rspace N M) (scaledWaves N L))
      est fuel m tstep ds (getintegrator rhs u) = some c') : Spec.Hermitian (Opposite N) c'.u0 :=
  C15_NS _ (fft_realModes N M L hL nu S) (fun m hm k k' hR => by
    obtain rfl := Option.some.inj hm; exact fft_mask_sym N k k' hR) hS name conv hc s est fuel m ds tstep rhs u hu c' h

/-- Non-trivial instance: on a 4x4x4 grid the constant field one is Hermitian. -/
example : Spec.Hermitian (d := 3) (Opposite (n := 2) fun _ => 4) (fun _ _ => 1) ∧
    (∃ k k', Opposite (n := 2) (fun _ => 4) k k' ∧ k ≠ k') := by
  refine ⟨fun k k' _ i => by simp, fun i => ⟨if i = 0 then 1 else 0, by unfold rdim; split <;> split <;> norm_num⟩,
    fun i => ⟨if i = 0 then 3 else 0, by fin_cases i <;> decide⟩, fun i => ?_, fun h => ?_⟩
  · fin_cases i <;> decide
  · have := congrFun h 0
    simp at this

/-- C15, VV on any grid. -/
theorem C15_VV_fft (N M : Fin 3 → ℕ) (L : Fin 3 → ℝ) (hL : ∀ i, L i ≠ 0) (nu : ℝ) (S : SArr 3 (RModes N))
    (hS : Spec.Hermitian (Opposite N) S) (s : Scratch 3 (RModes N) (Grid M))
    (est : SArr 3 (RModes N) → SArr 3 (RModes N) → SArr 3 (RModes N) → PyF) (fuel : ℕ)
    (m : Method) (ds : List ℝ) (tstep : ℕ) (rhs u : SArr 3 (RModes N)) (hu : Spec.Hermitian (Opposite N) u)
    (c' : Closure (SArr 3 (RModes N)))
    (h : runSteps (rhsVV (fftCtx N M L nu (some (nyquistMask N)) S) s) est fuel m tstep ds (getintegrator rhs u) = some c') :
    Spec.Hermitian (Opposite N) c'.u0 :=
  C15_VV _ (fft_realModes N M L hL nu S) (fun m hm k k' hR => by
    obtain rfl := Option.some.inj hm; exact fft_mask_sym N k k' hR) hS s est fuel m ds tstep rhs u hu c' h

/-- C15, MHD on any grid. -/
theorem C15_MHD_fft (N M : Fin 3 → ℕ) (L : Fin 3 → ℝ) (hL : ∀ i, L i ≠ 0) (nu eta : ℝ) (S : SArr 3 (RModes N))
    (est : SArr 3 (RModes N) × SArr 3 (RModes N) → SArr 3 (RModes N) × SArr 3 (RModes N) →
      SArr 3 (RModes N) × SArr 3 (RModes N) → PyF) (fuel : ℕ)
    (m : Method) (ds : List ℝ) (tstep : ℕ) (rhs ub : SArr 3 (RModes N) × SArr 3 (RModes N))
    (hu : Spec.Hermitian (Opposite N) ub.1) (hb : Spec.Hermitian (Opposite N) ub.2)
    (c' : Closure (SArr 3 (RModes N) × SArr 3 (RModes N)))
    (h : runSteps (rhsMHD (fftCtx N M L nu (some (nyquistMask N)) S) eta fun _ ub => convMHD ub (rspace N M) (scaledWaves N L))
      est fuel m tstep ds (getintegrator rhs ub) = some c') :
    Spec.Hermitian (Opposite N) c'.u0.1 ∧ Spec.Hermitian (Opposite N) c'.u0.2 :=
  C15_MHD _ eta (fft_realModes N M L hL nu S) (fun m hm k k' hR => by
    obtain rfl := Option.some.inj hm; exact fft_mask_sym N k k' hR) est fuel m ds tstep rhs ub hu hb c' h

/-- The two-point discrete Fourier transform (grid 2 x 1 x 1): modes 0 and Nyquist. -/
noncomputable def dft2 : Space (Fin 2) (Fin 2) where
  forward f := ![((f 0 + f 1) / 2 : ℝ), ((f 0 - f 1) / 2 : ℝ)]
  backward a := ![(a 0 + a 1).re, (a 0 - a 1).re]

/-- C15 fails without the mask on grids with an even size: there the Nyquist mode is its own opposite, its stored coefficient
should be real, but the Divergence form (`1j*K*...` with `K = -N/2`) makes it imaginary. -/
theorem C15_unmasked_even_false :
    let c : Ctx 3 (Fin 2) (Fin 2) := ⟨dft2, fun i k => if i = 0 ∧ k = 1 then -1 else 0, 1, none, 0⟩
    let R : Fin 2 → Fin 2 → Prop := fun k k' => k = k'
    let u : SArr 3 (Fin 2) := ![![1, 0], ![0, 1], ![0, 0]]
    (∀ f k k', R k k' → c.Tp.forward f k' = (starRingEnd ℂ) (c.Tp.forward f k)) ∧ Spec.Hermitian R u ∧ Spec.Solenoidal c.K u ∧
      ¬ Spec.Hermitian R (rhsNS c (fun r u => convDivergence ⟨0, 0, 0⟩ r u c.Tp c.K) 0 u) := by
  intro c R u
  refine ⟨?_, ?_, ?_, ?_⟩
  · rintro f k k' rfl
    fin_cases k <;> simp only [c, dft2, Fin.zero_eta, Fin.mk_one, Matrix.cons_val_zero, Matrix.cons_val_one, conj_ofReal]
  · rintro k k' rfl i
    fin_cases i <;> fin_cases k <;> simp [u]
  · intro k
    fin_cases k <;> simp [Spec.dot, Spec.at', c, u, Fin.sum_univ_three]
  · intro h
    have h1 := h 1 1 rfl 1
    have e : rhsNS c (fun r u => convDivergence ⟨0, 0, 0⟩ r u c.Tp c.K) 0 u 1 1 = I - 1 := by
      have e' : convDivergence ⟨0, 0, 0⟩ 0 u c.Tp c.K 1 1 = I := by
        rw [convDivergence_eq]
        simp [c, u, Spec.divergenceForm, Fin.sum_univ_three, dft2]
      simp only [rhsNS, ComputeRHS, add_pressure_diffusion, maskNyquist]
      simp [c, u, Fin.sum_univ_three, K2]
      exact e'
    rw [e] at h1
    have := congrArg Complex.im h1
    simp at this
    norm_num at this

/-! ## C09 -/

/-- Velocities of the NS/VV comparison: divergence free, zero mean, coefficients of a real field, no Nyquist modes. -/
noncomputable def flowSpace (N : Fin 3 → ℕ) (L : Fin 3 → ℝ) : Submodule ℝ (SArr 3 (RModes N)) :=
  Spec.solenoidal (scaledWaves N L) ⊓ (Spec.vanishing 3 fun k => ∀ i, waves N i k = 0) ⊓ Spec.hermitian (Opposite N) ⊓
    Spec.vanishing 3 fun k => nyquistMask N k = false

theorem scaled_zero (N : Fin (n + 1) → ℕ) (L : Fin (n + 1) → ℝ) (hL : ∀ i, L i ≠ 0) (k : RModes N) :
    (∀ i, scaledWaves N L i k = 0) ↔ ∀ i, waves N i k = 0 := by
  refine forall_congr' fun i => ?_
  have h : (2 * Real.pi / L i) ≠ 0 := div_ne_zero (by positivity) (hL i)
  simp [scaledWaves, hL i, Real.pi_ne_zero]

/-- The NS right-hand side (Vortex form) does not leave `flowSpace`; in particular the mean of `u x curl u` computed on the
grid is exactly zero. -/
theorem flowSpace_invariant (N M : Fin 3 → ℕ) (hN : ∀ i, 0 < N i) (hNM : ∀ i, N i ≤ M i) (L : Fin 3 → ℝ) (hL : ∀ i, L i ≠ 0)
    (nu : ℝ) (S : SArr 3 (RModes N)) (hS : S ∈ flowSpace N L) (s : Scratch 3 (RModes N) (Grid M)) (r u : SArr 3 (RModes N))
    (hu : u ∈ flowSpace N L) :
    rhsNS (fftCtx N M L nu (some (nyquistMask N)) S) (fun r u => convVortex s r u (rspace N M) (scaledWaves N L)) r u ∈
      flowSpace N L := by
  set c := fftCtx N M L nu (some (nyquistMask N)) S with hc
  obtain ⟨⟨⟨u1, u2⟩, u3⟩, u4⟩ := hu
  obtain ⟨⟨⟨s1, s2⟩, s3⟩, s4⟩ := hS
  refine ⟨⟨⟨C01_rhs_solenoidal c _ r u u1 s1, ?_⟩, ?_⟩, ?_⟩
  · intro k0 hk0 i
    have hK := (scaled_zero N L hL k0).2 hk0
    have hmask : nyquistMask N k0 = true := by
      rw [nyquistMask_iff]
      intro i
      have := hN i
      rw [hk0 i]
      omega
    rw [C01_mean_mode c _ r u k0 hK i (fun m hm => by obtain rfl := Option.some.inj hm; exact hmask)]
    have hS0 : c.Source i k0 = 0 := s2 k0 hk0 i
    rw [hS0, add_zero]
    refine C09_mean_zero c s r u u1 k0 (1 / Fintype.card (Grid M)) (rweight N) (fun f => ?_) (fun i j => ?_) i
    · have hk : ∀ x : Grid M, kernel (waves N) M k0 x = 1 := by
        intro x
        rw [kernel]
        simp [hk0]
      simp only [hc, fftCtx, rspace, dft, hk]
      push_cast
      simp
    · refine (dft_adjoint (kernel (waves N) M) (rweight N) (u i) (c.Tp.backward (Spec.curl c.K u j))).symm.trans ?_
      have hinv : (rspace N M).forward ((rspace N M).backward (Spec.curl c.K u j)) = Spec.curl c.K u j := by
        refine rspace_inverse N M hN hNM _ (fun k hk => ?_) fun k k' hkk' => ?_
        · simp only [Spec.curl, Spec.cross, show ∀ i, u i k = 0 from u4 k hk]
          simp
        · have hodd := (scaled_odd N L hL k k').2 hkk'
          have hopp : Opposite N k k' := fun i => by rw [hkk' i]; simp
          have e : ∀ i, u i k' = (starRingEnd ℂ) (u i k) := u3 k k' hopp
          have hK : ∀ i, c.K i k' = -c.K i k := hodd
          simp only [Spec.curl, Spec.cross, hK, e, map_mul, map_sub, conj_I, conj_ofReal]
          push_cast
          ring
      exact Finset.sum_congr rfl fun k _ => by
        rw [show (dft (kernel (waves N) M) (rweight N)).forward (c.Tp.backward (Spec.curl c.K u j)) = _ from hinv]
  · exact rhsNS_herm (fft_realModes N M L hL nu S) (fun m hm k k' hR => by
      obtain rfl := Option.some.inj hm; exact fft_mask_sym N k k' hR) _ r u
      (conv_hermOdd (fft_realModes N M L hL nu S) "Vortex" convVortex (by simp [getConvection]) s r u) u3 s3
  · intro k hk i
    have h1 : u i k = 0 := u4 k hk i
    have h2 : c.Source i k = 0 := s4 k hk i
    rw [C16_rhs_masked c _ r u (nyquistMask N) rfl k hk i, h1, h2]
    simp

/-- C09 for the transforms of the solvers: on every grid (any padding with at least as many points as modes), with the
Nyquist mask, starting NS (Vortex form) with any real divergence-free zero-mean velocity and VV with its curl, after any
number of steps of any fixed-step integrator the VV vorticity is the curl of the NS velocity, and the velocity recovered by
VV is the NS velocity. -/
theorem C09_same_flow_fft (N M : Fin 3 → ℕ) (hN : ∀ i, 0 < N i) (hNM : ∀ i, N i ≤ M i) (L : Fin 3 → ℝ) (hL : ∀ i, L i ≠ 0)
    (nu : ℝ) (S : SArr 3 (RModes N)) (hS : S ∈ flowSpace N L) (s s' : Scratch 3 (RModes N) (Grid M))
    (est est' : SArr 3 (RModes N) → SArr 3 (RModes N) → SArr 3 (RModes N) → PyF) (fuel : ℕ) (m : Method)
    (hmeth : m ≠ .BS5 true) (ds : List ℝ) (tstep : ℕ) (rhs rhs' u w0 : SArr 3 (RModes N)) (hu : u ∈ flowSpace N L)
    (r : Closure (SArr 3 (RModes N)))
    (h : runSteps (rhsNS (fftCtx N M L nu (some (nyquistMask N)) S) fun r u => convVortex s r u (rspace N M) (scaledWaves N L))
      est fuel m tstep ds (getintegrator rhs u) = some r) :
    ∃ r', runSteps (rhsVV (fftCtx N M L nu (some (nyquistMask N)) (Spec.curl (scaledWaves N L) S)) s') est' fuel m tstep ds
        (getintegrator rhs' (Spec.curl (scaledWaves N L) u)) = some r' ∧
      r'.u0 = Spec.curl (scaledWaves N L) r.u0 ∧ velocityHat w0 r'.u0 (K_over_K2 (scaledWaves N L)) = r.u0 := by
  refine C09_same_flow (fftCtx N M L nu (some (nyquistMask N)) S)
    (fftCtx N M L nu (some (nyquistMask N)) (Spec.curl (scaledWaves N L) S)) s s' rfl rfl rfl rfl rfl (flowSpace N L)
    (fun u hu => hu.1.1.1) (fun u hu k hk => hu.1.1.2 k ((scaled_zero N L hL k).1 hk))
    (fun r u hu => flowSpace_invariant N M hN hNM L hL nu S hS s r u hu) est est' fuel m hmeth ds tstep rhs rhs' u w0 hu r h

/-- `flowSpace` is not trivial: on any grid with at least 3 points in the first direction there is a flow along the third
direction, constant along the second and third: coefficient 1 at the modes `(1,0,0)` and `(-1,0,0)`. -/
example (N : Fin 3 → ℕ) (L : Fin 3 → ℝ) (hN : ∀ i, 3 ≤ N i) : ∃ u ∈ flowSpace N L, u ≠ 0 := by
  refine ⟨fun i k => if i = 2 ∧ (waves N 0 k = 1 ∨ waves N 0 k = -1) ∧ waves N 1 k = 0 ∧ waves N 2 k = 0 then 1 else 0,
    ⟨⟨⟨?_, ?_⟩, ?_⟩, ?_⟩, ?_⟩
  · intro k
    simp only [Spec.dot, Spec.at', Fin.sum_univ_three]
    by_cases h : waves N 2 k = 0
    · simp [scaledWaves, h]
    · simp [h]
  · intro k hk i
    simp [hk]
  · intro k k' hR i
    have key : ((waves N 0 k' = 1 ∨ waves N 0 k' = -1) ∧ waves N 1 k' = 0 ∧ waves N 2 k' = 0) ↔
        ((waves N 0 k = 1 ∨ waves N 0 k = -1) ∧ waves N 1 k = 0 ∧ waves N 2 k = 0) := by
      have h0 := opposite_cases N k k' hR 0
      have h1 := opposite_cases N k k' hR 1
      have h2 := opposite_cases N k k' hR 2
      omega
    simp only [key]
    split <;> simp
  · intro k hk i
    have hk' : ¬ (∀ i, -(N i : ℤ) < 2 * waves N i k ∧ 2 * waves N i k < N i) := by
      rw [← nyquistMask_iff]; simp [hk]
    have h0 := hN 0
    have h1 := hN 1
    have h2 := hN 2
    refine if_neg ?_
    rintro ⟨-, ha, hb, hc⟩
    apply hk'
    intro i
    fin_cases i <;> simp only [Fin.zero_eta, Fin.mk_one, Fin.reduceFinMk] <;> omega
  · intro h
    let k : RModes N := fun i => ⟨if i = 0 then 1 else 0, by
      have := hN i
      unfold rdim
      split <;> split <;> omega⟩
    have h1 := congrFun (congrFun h 2) k
    have e0 : waves N 0 k = 1 := by
      have := hN 0
      simp only [waves, k]
      rw [if_neg (by decide), if_pos (by simp; omega)]
      simp
    have e1 : waves N 1 k = 0 := by
      have := hN 1
      simp only [waves, k]
      rw [if_neg (by decide), if_pos (by simp; omega)]
      simp
    have e2 : waves N 2 k = 0 := by
      simp only [waves, k]
      rw [if_pos (by decide)]
      simp
    simp [e0, e1, e2] at h1

end SpectralDNS.Periodic

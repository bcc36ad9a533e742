import Verif.Lemmas.Optimization
import Mathlib.LinearAlgebra.CrossProduct

/-! # C46: the compiled kernels -/

namespace SpectralDNS.Opt

open Periodic

variable {n0 n1 n2 : ℕ}

/-- What is in the arrays at one index. -/
theorem vec_ext {κ R : Type*} {d : ℕ} {x y : Fin d → κ → R} (h : ∀ p, (fun m => x m p) = fun m => y m p) : x = y :=
  funext fun m => funext fun p => congrFun (h p) m

theorem pair_ext {κ : Type*} {d : ℕ} {x y : SArr d κ × (κ → ℂ)} (h : ∀ p, ((fun m => x.1 m p), x.2 p) = ((fun m => y.1 m p), y.2 p)) :
    x = y :=
  Prod.ext (vec_ext fun p => congrArg Prod.fst (h p)) (funext fun p => congrArg Prod.snd (h p))

/-- **C46** `cross1`: the compiled version writes what the numpy version writes, at every index of arrays of any shape. -/
theorem C46_cross1 (c a b : Fin 3 → Ix3 n0 n1 n2 → ℝ) : cross1 c a b = cross1_3d c a b := by
  refine vec_ext fun p => ?_
  refine (loop3D_get (σ := Fin 3 → ℝ) (fun c p m => c m p) _ (fun p _ => ![a 1 p * b 2 p - a 2 p * b 1 p,
    a 2 p * b 0 p - a 0 p * b 2 p, a 0 p * b 1 p - a 1 p * b 0 p]) ?_ c p).trans ?_
  · intro i s j
    funext m
    by_cases h : j = i
    · subst h; fin_cases m <;> simp [wr_apply]
    · fin_cases m <;> simp [wr_apply, h]
  · funext m; fin_cases m <;> simp [cross1_3d]

/-- The product of a real vector and a complex vector, times `1j`. -/
noncomputable def iCross (a : Fin 3 → ℝ) (b : Fin 3 → ℂ) : Fin 3 → ℂ := Complex.I • (crossProduct (fun i => (a i : ℂ)) b)

theorem cross2_3d_spec {κ : Type*} (c : SArr 3 κ) (a : Fin 3 → κ → ℝ) (b : SArr 3 κ) (p : κ) :
    (fun m => cross2_3d c a b m p) = iCross (fun m => a m p) (fun m => b m p) := by
  funext m
  fin_cases m <;> simp [cross2_3d, cross1_3d, iCross, cross_apply] <;> ring

theorem crossCell_get (a : Fin 3 → Ix3 n0 n1 n2 → ℝ) (b : SArr 3 (Ix3 n0 n1 n2)) (i : Ix3 n0 n1 n2) (s : SArr 3 (Ix3 n0 n1 n2))
    (j : Ix3 n0 n1 n2) : (fun m => crossCell (a 0 i) (a 1 i) (a 2 i) b i s m j)
      = if j = i then iCross (fun m => a m i) (fun m => b m i) else fun m => s m j := by
  funext m
  by_cases h : j = i
  · subst h
    fin_cases m <;> apply Complex.ext <;> simp [crossCell, wr_apply, setRe, setIm, iCross, cross_apply]
  · fin_cases m <;> simp [crossCell, wr_apply, h]

theorem crossCellNumba_get (a : Fin 3 → Ix3 n0 n1 n2 → ℝ) (b : SArr 3 (Ix3 n0 n1 n2)) (i : Ix3 n0 n1 n2) (s : SArr 3 (Ix3 n0 n1 n2))
    (j : Ix3 n0 n1 n2) : (fun m => crossCellNumba (a 0 i) (a 1 i) (a 2 i) b i s m j)
      = if j = i then iCross (fun m => a m i) (fun m => b m i) else fun m => s m j := by
  funext m
  by_cases h : j = i
  · subst h
    fin_cases m <;> apply Complex.ext <;> simp [crossCellNumba, wr_apply, iCross, cross_apply]
  · fin_cases m <;> simp [crossCellNumba, wr_apply, h]

/-- **C46** cython's `_cross2` (full array). -/
theorem C46_cross2_cython (c : SArr 3 (Ix3 n0 n1 n2)) (a : Fin 3 → Ix3 n0 n1 n2 → ℝ) (b : SArr 3 (Ix3 n0 n1 n2)) :
    cythonCross2 c a b = cross2_3d c a b := by
  refine vec_ext fun p => ?_
  rw [cross2_3d_spec]
  exact loop3D_get (σ := Fin 3 → ℂ) (fun c p m => c m p) _ (fun p _ => iCross (fun m => a m p) (fun m => b m p))
    (fun i s j => crossCell_get a b i s j) c p

/-- **C46** cython's `_cross3` (list of wavenumbers). -/
theorem C46_cross3_cython (c : SArr 3 (Ix3 n0 n1 n2)) (K : KList3 n0 n1 n2) (b : SArr 3 (Ix3 n0 n1 n2)) :
    cythonCross3 c K b = cross2_3d c K.full b := C46_cross2_cython c K.full b

/-- **C46** numba's and pythran's `cross2a` (full array). -/
theorem C46_cross2a_numba (c : SArr 3 (Ix3 n0 n1 n2)) (a : Fin 3 → Ix3 n0 n1 n2 → ℝ) (b : SArr 3 (Ix3 n0 n1 n2)) :
    numbaCross2a c a b = cross2_3d c a b := by
  refine vec_ext fun p => ?_
  rw [cross2_3d_spec]
  exact loop3D_get (σ := Fin 3 → ℂ) (fun c p m => c m p) _ (fun p _ => iCross (fun m => a m p) (fun m => b m p))
    (fun i s j => crossCellNumba_get a b i s j) c p

/-- **C46** numba's and pythran's `cross2c` (list of wavenumbers). -/
theorem C46_cross2c_numba (c : SArr 3 (Ix3 n0 n1 n2)) (K : KList3 n0 n1 n2) (b : SArr 3 (Ix3 n0 n1 n2)) :
    numbaCross2c c K b = cross2_3d c K.full b := C46_cross2a_numba c K.full b

/-- **C46** `cross1_2D`. -/
theorem C46_cross1_2D (c : Fin n0 × Fin n1 → ℝ) (a b : Fin 2 → Fin n0 × Fin n1 → ℝ) : cross1_2D c a b = cross1_2d c a b := by
  funext p
  exact loop2D_get (σ := ℝ) (fun c p => c p) (fun p c => Function.update c p (a 0 p * b 1 p - a 1 p * b 0 p)) (fun p _ => a 0 p * b 1 p - a 1 p * b 0 p)
    (by intro i s j; by_cases h : j = i <;> simp [h]) c p

theorem crossCell2D_get (a0 a1 : ℝ) (b : SArr 2 (Fin n0 × Fin n1)) (i : Fin n0 × Fin n1) (s : Fin n0 × Fin n1 → ℂ)
    (j : Fin n0 × Fin n1) : crossCell2D a0 a1 b i s j = if j = i then ((a0 : ℂ) * b 1 i - a1 * b 0 i) * Complex.I else s j := by
  by_cases h : j = i
  · subst h
    apply Complex.ext <;> simp [crossCell2D, setRe, setIm]
  · simp [crossCell2D, h]

/-- **C46** cython's `_cross2_2D` (full array). -/
theorem C46_cross2_2D_cython (c : Fin n0 × Fin n1 → ℂ) (a : Fin 2 → Fin n0 × Fin n1 → ℝ) (b : SArr 2 (Fin n0 × Fin n1)) :
    cythonCross2_2D c a b = cross2_2d c a b := by
  funext p
  exact loop2D_get (σ := ℂ) (fun c p => c p) _ (fun p _ => ((a 0 p : ℂ) * b 1 p - a 1 p * b 0 p) * Complex.I)
    (fun i s j => crossCell2D_get _ _ b i s j) c p

/-- What cython's `_cross3_2D` computes: it uses whatever the unchecked reads `kx[i,j]`, `ky[i,j]` return. -/
theorem cross3_2D_reads (c : Fin n0 × Fin n1 → ℂ) (kx ky : Buf) (b : SArr 2 (Fin n0 × Fin n1)) (p : Fin n0 × Fin n1) :
    cythonCross3_2D c kx ky b p = ((kx.read p.1 p.2 : ℂ) * b 1 p - ky.read p.1 p.2 * b 0 p) * Complex.I :=
  loop2D_get (σ := ℂ) (fun c p => c p) _ (fun p _ => ((kx.read p.1 p.2 : ℂ) * b 1 p - ky.read p.1 p.2 * b 0 p) * Complex.I)
    (fun i s j => crossCell2D_get _ _ b i s j) c p

/-- **C46, partial** `_cross3_2D` agrees with numpy if the buffers have stride 0 along their axes of length 1.  Missing: the C-ordered
buffers numpy exports (strides equal to the number of later elements), for which it fails. -/
theorem C46_cross3_2D_partial (c : Fin n0 × Fin n1 → ℂ) (kx ky : Buf) (b : SArr 2 (Fin n0 × Fin n1)) (hx : kx.s1 = 0) (hy : ky.s0 = 0) :
    cythonCross3_2D c kx ky b = cross2_2d c (fullBuf kx ky) b := by
  funext p
  rw [cross3_2D_reads]
  simp [cross2_2d, cross1_2d, fullBuf, Buf.read, hx, hy]

/-- **C46 fails** for `_cross3_2D` on C-ordered wavenumber arrays: at entry `(0, 1)` it uses `kx[1]` instead of `kx[0]`, and at `(1, 0)` it
reads `ky` past its end. -/
theorem C46_cross3_2D_false (m0 m1 : ℕ) (c : Fin (m0 + 2) × Fin (m1 + 2) → ℂ) (memx memy : ℕ → ℝ) (b : SArr 2 (Fin (m0 + 2) × Fin (m1 + 2)))
    (hb : b 1 (0, 1) ≠ 0) (hx : memx 1 ≠ memx 0) :
    cythonCross3_2D c ⟨memx, 1, 1⟩ ⟨memy, m1 + 2, 1⟩ b ≠ cross2_2d c (fullBuf ⟨memx, 1, 1⟩ ⟨memy, m1 + 2, 1⟩) b := by
  intro h
  have h1 := congrFun h (0, 1)
  rw [cross3_2D_reads] at h1
  simp only [cross2_2d, cross1_2d, fullBuf, Buf.read] at h1
  simp at h1
  rcases h1 with h1 | h1
  · exact hx h1
  · exact hb h1

/-- **C46** what numpy computes from C-ordered wavenumber arrays of the shapes `(n0, 1)` and `(1, n1)`: `kx[i,0]` and `ky[0,j]`, elements of the arrays. -/
theorem C46_cross3_2D_numpy (c : Fin n0 × Fin n1 → ℂ) (memx memy : ℕ → ℝ) (b : SArr 2 (Fin n0 × Fin n1)) (p : Fin n0 × Fin n1) :
    cross2_2d c (fullBuf ⟨memx, 1, 1⟩ ⟨memy, n1, 1⟩) b p = ((memx p.1 : ℂ) * b 1 p - memy p.2 * b 0 p) * Complex.I := by
  simp [cross2_2d, cross1_2d, fullBuf, Buf.read]

/-- **C46 fails** for `_cross3_2D` at entry `(1, 0)` too: it uses the memory after the end of `ky` instead of `ky[0,0]`. -/
theorem C46_cross3_2D_false_past_end (m0 m1 : ℕ) (c : Fin (m0 + 2) × Fin (m1 + 2) → ℂ) (memx memy : ℕ → ℝ) (b : SArr 2 (Fin (m0 + 2) × Fin (m1 + 2)))
    (hb : b 0 (1, 0) ≠ 0) (hy : memy (m1 + 2) ≠ memy 0) :
    cythonCross3_2D c ⟨memx, 1, 1⟩ ⟨memy, m1 + 2, 1⟩ b ≠ cross2_2d c (fullBuf ⟨memx, 1, 1⟩ ⟨memy, m1 + 2, 1⟩) b := by
  intro h
  have h1 := congrFun h (1, 0)
  rw [cross3_2D_reads, C46_cross3_2D_numpy] at h1
  simp [Buf.read] at h1
  rcases h1 with h1 | h1
  · exact hy h1
  · exact hb h1

/-- The index read in `ky` at entry `(1, 0)` is outside its `n1` elements. -/
theorem C46_cross3_2D_out_of_bounds (m1 : ℕ) (memy : ℕ → ℝ) :
    (⟨memy, m1 + 2, 1⟩ : Buf).read 1 0 = memy (m1 + 2) ∧ ¬ m1 + 2 < 1 * (m1 + 2) := ⟨by simp [Buf.read], by omega⟩

/-- **C46** cython's `add_pressure_diffusion_NS`: the right-hand side and the pressure. -/
theorem C46_pressure_NS_cython (rhs u_hat : SArr 3 (Ix3 n0 n1 n2)) (P_hat : Ix3 n0 n1 n2 → ℂ) (nu : ℝ) (ksq : Ix3 n0 n1 n2 → ℝ)
    (K : KList3 n0 n1 n2) (kk : Fin 3 → Ix3 n0 n1 n2 → ℝ) :
    cythonPressureNS u_hat nu ksq K kk (rhs, P_hat) = add_pressure_diffusion rhs u_hat nu ksq K.full kk := by
  refine pair_ext fun p => ?_
  refine (loop3D_get (σ := (Fin 3 → ℂ) × ℂ) (fun s p => ((fun m => s.1 m p), s.2 p))
    (fun p => pressureCellCython (K.full 0 p) (K.full 1 p) (K.full 2 p) u_hat nu ksq kk p) (fun p t =>
    ((fun m => t.1 m - ((∑ i, t.1 i * (kk i p : ℂ)) * K.full m p) - (nu * ksq p : ℝ) * u_hat m p), ∑ i, t.1 i * (kk i p : ℂ)))
    ?_ (rhs, P_hat) p).trans ?_
  · intro i s j
    by_cases h : j = i
    · subst h
      rw [if_pos rfl]
      refine Prod.ext (funext fun m => ?_) ?_
      · fin_cases m <;> apply Complex.ext <;>
          simp [pressureCellCython, wr_apply, setRe, setIm, Fin.sum_univ_three, KList3.full] <;> ring
      · apply Complex.ext <;> simp [pressureCellCython, setRe, setIm, Fin.sum_univ_three]
    · rw [if_neg h]
      refine Prod.ext (funext fun m => ?_) ?_
      · simp [pressureCellCython, wr_apply, h]
      · simp [pressureCellCython, h]
  · rfl

/-- **C46** numba's and pythran's `add_pressure_diffusion_NS`. -/
theorem C46_pressure_NS_numba (rhs u_hat : SArr 3 (Ix3 n0 n1 n2)) (P_hat : Ix3 n0 n1 n2 → ℂ) (nu : ℝ) (ksq : Ix3 n0 n1 n2 → ℝ)
    (K : KList3 n0 n1 n2) (kk : Fin 3 → Ix3 n0 n1 n2 → ℝ) :
    numbaPressureNS u_hat nu ksq K kk (rhs, P_hat) = add_pressure_diffusion rhs u_hat nu ksq K.full kk := by
  refine pair_ext fun p => ?_
  refine (loop3D_get (σ := (Fin 3 → ℂ) × ℂ) (fun s p => ((fun m => s.1 m p), s.2 p))
    (fun p => pressureCellNumba (K.full 0 p) (K.full 1 p) (K.full 2 p) u_hat nu ksq kk p) (fun p t =>
    ((fun m => t.1 m - ((∑ i, t.1 i * (kk i p : ℂ)) * K.full m p) - (nu * ksq p : ℝ) * u_hat m p), ∑ i, t.1 i * (kk i p : ℂ)))
    ?_ (rhs, P_hat) p).trans ?_
  · intro i s j
    by_cases h : j = i
    · subst h
      rw [if_pos rfl]
      refine Prod.ext (funext fun m => ?_) ?_
      · fin_cases m <;> simp [pressureCellNumba, wr_apply, Fin.sum_univ_three, KList3.full] <;> ring
      · simp [pressureCellNumba, Fin.sum_univ_three]
    · rw [if_neg h]
      refine Prod.ext (funext fun m => ?_) ?_
      · simp [pressureCellNumba, wr_apply, h]
      · simp [pressureCellNumba, h]
  · rfl

/-- **C46** cython's `add_pressure_diffusion_NS2D`. -/
theorem C46_pressure_NS2D (rhs u_hat : SArr 2 (Fin n0 × Fin n1)) (P_hat : Fin n0 × Fin n1 → ℂ) (nu : ℝ) (ksq : Fin n0 × Fin n1 → ℝ)
    (K : KList2 n0 n1) (kk : Fin 2 → Fin n0 × Fin n1 → ℝ) :
    cythonPressureNS2D u_hat nu ksq K kk (rhs, P_hat) = add_pressure_diffusion rhs u_hat nu ksq K.full kk := by
  refine pair_ext fun p => ?_
  refine (loop2D_get (σ := (Fin 2 → ℂ) × ℂ) (fun s p => ((fun m => s.1 m p), s.2 p))
    (fun p => pressureCell2D (K.full 0 p) (K.full 1 p) u_hat nu ksq kk p) (fun p t =>
    ((fun m => t.1 m - ((∑ i, t.1 i * (kk i p : ℂ)) * K.full m p) - (nu * ksq p : ℝ) * u_hat m p), ∑ i, t.1 i * (kk i p : ℂ)))
    ?_ (rhs, P_hat) p).trans ?_
  · intro i s j
    by_cases h : j = i
    · subst h
      rw [if_pos rfl]
      refine Prod.ext (funext fun m => ?_) ?_
      · fin_cases m <;> simp [pressureCell2D, wr_apply, Fin.sum_univ_two, KList2.full] <;> ring
      · simp [pressureCell2D, Fin.sum_univ_two]
    · rw [if_neg h]
      refine Prod.ext (funext fun m => ?_) ?_
      · simp [pressureCell2D, wr_apply, h]
      · simp [pressureCell2D, h]
  · rfl

/-- **C46** cython's `add_pressure_diffusion_Bq2D`. -/
theorem C46_pressure_Bq2D (rhs ur_hat : SArr 2 (Fin n0 × Fin n1) × (Fin n0 × Fin n1 → ℂ)) (P_hat : Fin n0 × Fin n1 → ℂ)
    (nu Ri Pr : ℝ) (ksq : Fin n0 × Fin n1 → ℝ) (K : KList2 n0 n1) (kk : Fin 2 → Fin n0 × Fin n1 → ℝ) :
    cythonPressureBq2D ur_hat kk K ksq nu Ri Pr (rhs, P_hat) = add_pressure_diffusionBq rhs ur_hat kk K.full ksq nu Ri Pr := by
  have key := fun p => loop2D_get (σ := ((Fin 2 → ℂ) × ℂ) × ℂ)
    (fun (s : (SArr 2 (Fin n0 × Fin n1) × (Fin n0 × Fin n1 → ℂ)) × (Fin n0 × Fin n1 → ℂ)) p =>
      (((fun m => s.1.1 m p), s.1.2 p), s.2 p))
    (fun p => pressureCellBq (K.full 0 p) (K.full 1 p) ur_hat kk ksq nu Ri Pr p) (fun p t =>
    ((![t.1.1 0 - (((∑ i, t.1.1 i * (kk i p : ℂ)) - Ri * ur_hat.2 p * kk 1 p) * K.full 0 p) - (nu * ksq p : ℝ) * ur_hat.1 0 p,
       t.1.1 1 - (((∑ i, t.1.1 i * (kk i p : ℂ)) - Ri * ur_hat.2 p * kk 1 p) * K.full 1 p)
        - ((nu * ksq p : ℝ) * ur_hat.1 1 p + Ri * ur_hat.2 p)], t.1.2 - (nu * ksq p : ℝ) * ur_hat.2 p / Pr),
      (∑ i, t.1.1 i * (kk i p : ℂ)) - Ri * ur_hat.2 p * kk 1 p))
    (by
    intro i s j
    by_cases h : j = i
    · subst h
      rw [if_pos rfl]
      refine Prod.ext (Prod.ext (funext fun m => ?_) ?_) ?_
      · fin_cases m <;> simp [pressureCellBq, wr_apply, Fin.sum_univ_two, KList2.full] <;> ring
      · simp [pressureCellBq]; ring
      · simp [pressureCellBq, Fin.sum_univ_two]
    · rw [if_neg h]
      refine Prod.ext (Prod.ext (funext fun m => ?_) ?_) ?_
      · simp [pressureCellBq, wr_apply, h]
      · simp [pressureCellBq, h]
      · simp [pressureCellBq, h]) (rhs, P_hat) p
  refine Prod.ext (Prod.ext (vec_ext fun p => ?_) (funext fun p => ?_)) (funext fun p => ?_)
  · refine (congrArg (fun t => t.1.1) (key p)).trans ?_
    funext m
    fin_cases m <;> simp [add_pressure_diffusionBq]
  · exact congrArg (fun t => t.1.2) (key p)
  · exact congrArg (fun t => t.2) (key p)

/-- **C46** `compute_vw`. -/
theorem C46_compute_vw (u_hat : SArr 3 (Ix3 n0 n1 n2)) (f g : Ix3 n0 n1 n2 → ℂ) (kk : Fin 2 → Ix3 n0 n1 n2 → ℝ) :
    compiledComputeVW u_hat f g kk = numpyComputeVW u_hat f g kk := by
  refine vec_ext fun p => ?_
  refine (loop3D_get (σ := Fin 3 → ℂ) (fun c p m => c m p) _ (fun p t => ![t 0, -Complex.I * (kk 0 p * f p - kk 1 p * g p),
    -Complex.I * (kk 1 p * f p + kk 0 p * g p)]) ?_ u_hat p).trans ?_
  · intro i s j
    funext m
    by_cases h : j = i
    · subst h; fin_cases m <;> simp [wr_apply]
    · fin_cases m <;> simp [wr_apply, h]
  · funext m; fin_cases m <;> simp [numpyComputeVW]

/-- **C46** `mult_K1j`. -/
theorem C46_mult_K1j (K : KList3 n0 n1 n2) (a : Ix3 n0 n1 n2 → ℂ) (f : SArr 2 (Ix3 n0 n1 n2)) :
    compiledMultK1j K a f = numpyMultK1j K a f := by
  refine vec_ext fun p => ?_
  refine (loop3D_get (σ := Fin 2 → ℂ) (fun c p m => c m p)
    (fun p => multCell (K.full 1 p) (K.full 2 p) a p) (fun p _ => ![Complex.I * K.full 2 p * a p,
    -Complex.I * K.full 1 p * a p]) ?_ f p).trans ?_
  · intro i s j
    funext m
    by_cases h : j = i
    · subst h; fin_cases m <;> simp [multCell, wr_apply, KList3.full]
    · fin_cases m <;> simp [multCell, wr_apply, h]
  · funext m; fin_cases m <;> simp [numpyMultK1j]

/-- **C46** `assembleAB`. -/
theorem C46_assembleAB {n : ℕ} (H0 H H1 : Ix4 n n0 n1 n2 → ℂ) : cythonAssembleAB H0 H H1 = numpyAssembleAB H0 H H1 := by
  funext p
  exact loop4D_get (σ := ℂ) (fun c p => c p) (fun p H0 => Function.update H0 p (1.5 * H p - 0.5 * H1 p)) (fun p _ => 1.5 * H p - 0.5 * H1 p)
    (by intro i s j; by_cases h : j = i <;> simp [h]) H0 p

/-- A non-trivial instance: wavenumbers `(0, 1)` in each direction and a field of ones; at the zero wavenumber the kernel gives 0, at
`(1, 0, 0)` it gives `(0, -1j, 1j)`. -/
example : (fun m => cythonCross3 (n0 := 2) (n1 := 2) (n2 := 2) (fun _ _ => 7) ⟨fun p => p.1, fun p => p.2.1, fun p => p.2.2⟩
    (fun _ _ => 1) m (1, 0, 0)) = ![0, -Complex.I, Complex.I] := by
  rw [C46_cross3_cython]
  funext m
  fin_cases m <;> simp [cross2_3d, cross1_3d, KList3.full]

end SpectralDNS.Opt

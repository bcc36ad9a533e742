import Verif.Lemmas.Slab

/-!
# C54: slab-decomposed transforms
-/

namespace SpectralDNS.Short

open Complex Periodic

/-- Specification: the three-dimensional discrete Fourier transform of a real array at frequencies `(k0, k1, k2)`. -/
noncomputable def dft3 {N : ℕ} (u : Fin N → Fin N → Fin N → ℝ) (k0 k1 k2 : ℕ) : ℂ :=
  ∑ x : Fin N, ∑ y : Fin N, ∑ z : Fin N, (u x y z : ℂ) *
    Complex.exp (-(2 * Real.pi * I * (((k0 : ℂ) * (x : ℕ) + (k1 : ℂ) * (y : ℕ) + (k2 : ℂ) * (z : ℕ)) / (N : ℂ))))

/-- C54.  Rank `p` ends with the entries of the global transform whose second index lies in its block. -/
theorem C54_forward (P n : ℕ) (u : Fin (P * n) → Fin (P * n) → Fin (P * n) → ℝ) (p : Fin P) (k : Fin (P * n)) (b : Fin n)
    (c : Fin (P * n / 2 + 1)) :
    fftn_mpi (fun q a => u (glob q a)) p k b c = dft3 u k (glob p b : Fin (P * n)) c := by
  unfold fftn_mpi alltoall pack
  simp only [split_glob, glob_split]
  unfold fft rfft2 fft rfft dft3
  simp only [Finset.sum_mul]
  refine Finset.sum_congr rfl fun x _ => Finset.sum_congr rfl fun y _ => Finset.sum_congr rfl fun z _ => ?_
  rw [mul_assoc, mul_assoc, ← root_add, ← root_add]
  unfold root
  congr 2
  push_cast
  ring

/-- C54.  The wavenumbers of the script are the representatives of the transform's frequencies in `[-N/2, N/2)`. -/
theorem C54_wavenumbers (N : ℕ) (k : Fin N) : (N : ℤ) ∣ freq N k - (k : ℕ) ∧ -(N : ℤ) ≤ 2 * freq N k ∧ 2 * freq N k < N := by
  unfold freq
  split
  · refine ⟨by simp, by omega, by omega⟩
  · refine ⟨⟨-1, by ring⟩, by omega, by omega⟩

/-- C54.  Every entry of the half-complex transform lives on exactly one rank. -/
theorem C54_owner (P n : ℕ) (j : Fin (P * n)) : ∃! pb : Fin P × Fin n, glob pb.1 pb.2 = j :=
  ⟨split j, glob_split j, fun pb h => by rw [← h, split_glob]⟩

/-- C54.  Rank `p` owns the contiguous rows `p*n .. p*n+n-1`, as the slices in lines 28 and 39 of the script say. -/
theorem C54_rows (P n : ℕ) (p : Fin P) (a : Fin n) : ((glob p a : Fin (P * n)) : ℕ) = p * n + a := by
  simp [glob, finProdFinEquiv, Nat.mul_comm, Nat.add_comm]

/-- C54.  The inverse gives every rank its slab of the serial inverse transform. -/
theorem C54_backward (P n : ℕ) (U : Fin (P * n) → Fin (P * n) → Fin (P * n / 2 + 1) → ℂ) (p : Fin P) (a : Fin n) (y z : Fin (P * n)) :
    ifftn_mpi (fun q k b c => U k (glob q b) c) p a y z =
      irfft2 (fun k1 k2 => ifft (fun k0 => U k0 k1 k2) (glob p a)) y z := by
  unfold ifftn_mpi alltoall unpack
  simp only [split_glob, glob_split]

/-- C54.  The inverse restores the data, for every number of ranks and every even grid size. -/
theorem C54_inverse (P n : ℕ) (he : Even (P * n)) (u : Fin P → Fin n → Fin (P * n) → Fin (P * n) → ℝ) :
    ifftn_mpi (fftn_mpi u) = u := by
  funext p a
  unfold ifftn_mpi fftn_mpi
  have h : ∀ (q : Fin P) (x : Fin (P * n)) (b : Fin n) (c : Fin (P * n / 2 + 1)),
      ifft (fun k => fft (fun x => alltoall (fun p => pack fun a => rfft2 (u p a)) q x b c) k) x =
        alltoall (fun p => pack fun a => rfft2 (u p a)) q x b c := fun q x b c => congrFun (ifft_fft _) x
  simp only [h]
  unfold alltoall unpack pack
  simp only [split_glob, glob_split]
  exact irfft2_rfft2 he (u p a)

/-- C54.  The forward transform of the spectral data of a real field gives them back: the transforms are inverse to each other on the
image of the forward transform. -/
theorem C54_inverse_spectral (P n : ℕ) (he : Even (P * n)) (u : Fin P → Fin n → Fin (P * n) → Fin (P * n) → ℝ) :
    fftn_mpi (ifftn_mpi (fftn_mpi u)) = fftn_mpi u := by rw [C54_inverse P n he]

/-- Two ranks, four points per direction. -/
example (u : Fin 2 → Fin 2 → Fin 4 → Fin 4 → ℝ) : ifftn_mpi (P := 2) (n := 2) (fftn_mpi u) = u := C54_inverse 2 2 (by decide) u

/-- The transform is not trivial: a constant field has mean coefficient `N^3`. -/
example : dft3 (N := 2) (fun _ _ _ => 1) 0 0 0 = 8 := by
  simp [dft3]; norm_num

end SpectralDNS.Short

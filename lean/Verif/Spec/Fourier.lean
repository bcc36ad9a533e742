import Mathlib.Data.Complex.Basic
import Mathlib.Data.Complex.BigOperators
import Mathlib.LinearAlgebra.Complex.Module
import Mathlib.Algebra.BigOperators.Fin
import Mathlib.Algebra.Module.Pi
import Mathlib.Algebra.Module.Submodule.Defs

/-!
# Specification vocabulary for Fourier coefficients of vector fields

Independent of the model: `u i k` is the `i`-th component at mode `k`, `K i k` the `i`-th component of the (real)
wavenumber vector of mode `k`.
-/

namespace SpectralDNS.Spec

open Complex

variable {d : ℕ} {ι : Type*}

/-- `k . v` for a real wavenumber vector and complex coefficients (the divergence without the factor `i`). -/
noncomputable def dot (k : Fin d → ℝ) (v : Fin d → ℂ) : ℂ := ∑ i, (k i : ℂ) * v i

/-- `|k|^2`. -/
def normSq (k : Fin d → ℝ) : ℝ := ∑ i, k i ^ 2

/-- The wavenumber vector at mode `k`. -/
def at' {R : Type*} (K : Fin d → ι → R) (k : ι) : Fin d → R := fun i => K i k

/-- All modes are divergence free. -/
def Solenoidal (K : Fin d → ι → ℝ) (u : Fin d → ι → ℂ) : Prop := ∀ k, dot (at' K k) (at' u k) = 0

/-- Divergence-free fields form a linear space. -/
noncomputable def solenoidal (K : Fin d → ι → ℝ) : Submodule ℝ (Fin d → ι → ℂ) where
  carrier := {u | Solenoidal K u}
  add_mem' := by
    intro a b ha hb k
    have h1 := ha k
    have h2 := hb k
    simp only [dot, at', Pi.add_apply, mul_add, Finset.sum_add_distrib] at *
    rw [h1, h2, add_zero]
  zero_mem' := by intro k; simp [dot, at']
  smul_mem' := by
    intro c a ha k
    have h1 := ha k
    simp only [dot, at', Pi.smul_apply, real_smul] at *
    rw [show (∑ i, (K i k : ℂ) * ((c : ℂ) * a i k)) = (c : ℂ) * ∑ i, (K i k : ℂ) * a i k by
      rw [Finset.mul_sum]; exact Finset.sum_congr rfl fun i _ => by ring, h1, mul_zero]

/-- Components of a cross product `a x b`, by cyclic indices: `(a x b)_i = a_{i+1} b_{i+2} - a_{i+2} b_{i+1}`. -/
def cross {R : Type*} [Mul R] [Sub R] (a b : Fin 3 → R) : Fin 3 → R := fun i => a (i + 1) * b (i + 2) - a (i + 2) * b (i + 1)

/-- The curl in Fourier space, `i k x u`. -/
noncomputable def curl (K : Fin 3 → ι → ℝ) (u : Fin 3 → ι → ℂ) : Fin 3 → ι → ℂ :=
  fun i k => I * cross (fun j => (K j k : ℂ)) (fun j => u j k) i

/-- `a` vanishes at the modes with zero wavenumber. -/
def ZeroMean (K : Fin d → ι → ℝ) (u : Fin d → ι → ℂ) : Prop := ∀ k, (∀ i, K i k = 0) → ∀ i, u i k = 0

end SpectralDNS.Spec

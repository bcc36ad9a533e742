import Mathlib.Analysis.SpecialFunctions.Trigonometric.Basic

/-!
# shen/LUsolve.pyx

Arrays are flat memories `ℕ → ℂ`; writes are `Function.update`. Arithmetic is exact.
-/

namespace SpectralDNS.LUsolve

/-- `for i in xrange(n, 0, -1)`. -/
def down {σ : Type*} : ℕ → (ℕ → σ → σ) → σ → σ
  | 0, _, s => s
  | n + 1, f, s => down n f (f (n + 1) s)

/-! ## Mult_CTD -/

/-- The two result memories and the four running sums of `Mult_CTD_1D_ptr` (LUsolve.pyx:122-129). -/
structure CTD where
  bv : ℕ → ℂ
  bw : ℕ → ℂ
  s0 : ℂ
  s1 : ℂ
  s2 : ℂ
  s3 : ℂ

/-- Body of the loop, LUsolve.pyx:138-156; `p` is the address of the first entry of the column. -/
def ctdBody (v w : ℕ → ℂ) (p st : ℕ) (i : ℕ) (s : CTD) : CTD :=
  let ii := p + i * st
  let bv := Function.update s.bv ii (-2 * ((i : ℂ) + 1) * v (p + (i - 1) * st))
  let bw := Function.update s.bw ii (-2 * ((i : ℂ) + 1) * w (p + (i - 1) * st))
  if i % 2 = 0 then
    let s0 := s.s0 + v (p + (i + 1) * st)
    let s2 := s.s2 + w (p + (i + 1) * st)
    ⟨Function.update bv ii (bv ii - s0 * 4), Function.update bw ii (bw ii - s2 * 4), s0, s.s1, s2, s.s3⟩
  else
    let s1 := s.s1 + v (p + (i + 1) * st)
    let s3 := s.s3 + w (p + (i + 1) * st)
    ⟨Function.update bv ii (bv ii - s1 * 4), Function.update bw ii (bw ii - s3 * 4), s.s0, s1, s.s2, s3⟩

/-- `Mult_CTD_1D_ptr` (LUsolve.pyx:116-160). -/
def multCTD1D (N : ℕ) (v w bv bw : ℕ → ℂ) (p st : ℕ) : (ℕ → ℂ) × (ℕ → ℂ) :=
  let bv := Function.update bv (p + (N - 1) * st) 0
  let bv := Function.update bv (p + (N - 2) * st) (-2 * ((N : ℂ) - 1) * v (p + (N - 3) * st))
  let bv := Function.update bv (p + (N - 3) * st) (-2 * ((N : ℂ) - 2) * v (p + (N - 4) * st))
  let bw := Function.update bw (p + (N - 1) * st) 0
  let bw := Function.update bw (p + (N - 2) * st) (-2 * ((N : ℂ) - 1) * w (p + (N - 3) * st))
  let bw := Function.update bw (p + (N - 3) * st) (-2 * ((N : ℂ) - 2) * w (p + (N - 4) * st))
  let s := down (N - 4) (ctdBody v w p st) ⟨bv, bw, 0, 0, 0, 0⟩
  let s0 := s.s0 + v (p + st)
  let s2 := s.s2 + w (p + st)
  (Function.update s.bv p (-s0 * 2), Function.update s.bw p (-s2 * 2))

/-- Addresses of the first entries of the columns along `axis` of a C-contiguous array of shape `(n0, n1, n2)`, in the order of the
loops of `Mult_CTD_3D_ptr` (LUsolve.pyx:171-182). -/
def columns (n0 n1 n2 : ℕ) : Fin 3 → List ℕ
  | 0 => (List.range n1).flatMap fun j => (List.range n2).map fun k => j * n2 + k
  | 1 => (List.range n0).flatMap fun i => (List.range n2).map fun k => i * n1 * n2 + k
  | 2 => (List.range n0).flatMap fun i => (List.range n1).map fun j => (i * n1 + j) * n2

/-- `strides[axis]/itemsize` of that array (LUsolve.pyx:170). -/
def stride (n1 n2 : ℕ) : Fin 3 → ℕ
  | 0 => n1 * n2
  | 1 => n2
  | 2 => 1

/-- `Mult_CTD_3D_ptr` (LUsolve.pyx:162-182). -/
def multCTD3D (N n0 n1 n2 : ℕ) (axis : Fin 3) (v w bv bw : ℕ → ℂ) : (ℕ → ℂ) × (ℕ → ℂ) :=
  (columns n0 n1 n2 axis).foldl (fun b p => multCTD1D N v w b.1 b.2 p (stride n1 n2 axis)) (bv, bw)

/-! ## Mult_Div -/

section
open Real

/-- LUsolve.pyx:57-58. -/
noncomputable def bii (i : ℕ) : ℝ := π / 2.0 * (1.0 + ((i + 1 : ℝ) * 1.0 / ((i + 1 : ℝ) + 2.0)) ^ 2)
/-- LUsolve.pyx:67-68: `resize` fills with zeros. -/
noncomputable def bp2 (M i : ℕ) : ℝ := if i < M - 2 then -π / 2.0 * ((((i : ℝ) + 1) * 1.0) / (((i : ℝ) + 1) + 2.0)) ^ 2 else 0
/-- LUsolve.pyx:69-70. -/
noncomputable def bm2 (M i : ℕ) : ℝ := if 1 ≤ i ∧ i < M then -π / 2.0 else 0
/-- LUsolve.pyx:71-72. -/
noncomputable def cm1 (i : ℕ) : ℝ := -((i + 1 : ℝ) + 1.0) * π
/-- LUsolve.pyx:73-74. -/
noncomputable def cp1 (M i : ℕ) : ℝ :=
  if i < M - 1 then -π * (2.0 - ((((i : ℝ) + 1) * 1.0) / (((i : ℝ) + 1) + 2.0)) ^ 2 * (((i : ℝ) + 1) + 3.0)) else 0
/-- LUsolve.pyx:75-76. -/
noncomputable def cp3 (M i : ℕ) : ℝ := if i < M - 3 then -2.0 * π * (1.0 - ((((i : ℝ) + 1) * 1.0) / (((i : ℝ) + 1) + 2.0)) ^ 2) else 0

/-- The result and the running sums of `Mult_Div_1D` (LUsolve.pyx:49-56). -/
structure Div where
  b : ℕ → ℂ
  s0 : ℂ
  s1 : ℂ

/-- Body of the loop, LUsolve.pyx:94-107. -/
noncomputable def divBody (M : ℕ) (m n : ℝ) (u v w : ℕ → ℂ) (i : ℕ) (s : Div) : Div :=
  let b := Function.update s.b i ((m * bm2 M i * v (i - 1) + n * bm2 M i * w (i - 1)
    + m * bii i * v (i + 1) + n * bii i * w (i + 1)
    + m * bp2 M i * v (i + 3) + n * bp2 M i * w (i + 3)) * Complex.I
    + cm1 i * u i + cp1 M i * u (i + 2))
  if i % 2 = 0 then
    let s0 := s.s0 + u (i + 4)
    ⟨Function.update b i (b i + s0 * cp3 M i), s0, s.s1⟩
  else
    let s1 := s.s1 + u (i + 4)
    ⟨Function.update b i (b i + s1 * cp3 M i), s.s0, s1⟩

/-- `Mult_Div_1D` (LUsolve.pyx:37-114). -/
noncomputable def multDiv1D (N : ℕ) (m n : ℝ) (u v w b : ℕ → ℂ) : ℕ → ℂ :=
  let M := N - 3
  let b := Function.update b (M - 1) ((m * bm2 M (M - 1) * v (M - 2) + n * bm2 M (M - 1) * w (M - 2)
    + m * bii (M - 1) * v M + n * bii (M - 1) * w M) * Complex.I + cm1 (M - 1) * u (M - 1))
  let b := Function.update b (M - 2) ((m * bm2 M (M - 2) * v (M - 3) + n * bm2 M (M - 2) * w (M - 3)
    + m * bii (M - 2) * v (M - 1) + n * bii (M - 2) * w (M - 1)) * Complex.I + cm1 (M - 2) * u (M - 2) + cp1 M (M - 2) * u M)
  let b := Function.update b (M - 3) ((m * bm2 M (M - 3) * v (M - 4) + n * bm2 M (M - 3) * w (M - 4)
    + m * bii (M - 3) * v (M - 2) + n * bii (M - 3) * w (M - 2)
    + m * bp2 M (M - 3) * v M + n * bp2 M (M - 3) * w M) * Complex.I + cm1 (M - 3) * u (M - 3) + cp1 M (M - 3) * u (M - 1))
  let s := down (M - 4) (divBody M m n u v w) ⟨b, 0, 0⟩
  let b := Function.update s.b 0 (cm1 0 * u 0 + cp1 M 0 * u 2
    + Complex.I * (m * bii 0 * v 1 + n * bii 0 * w 1 + m * bp2 M 0 * v 3 + n * bp2 M 0 * w 3))
  let s0 := s.s0 + u 4
  Function.update b 0 (b 0 + s0 * cp3 M 0)

/-- `Mult_Div_3D` (LUsolve.pyx:20-35): the one-dimensional routine on every column `(i, j)`. -/
noncomputable def multDiv3D (N : ℕ) (m n : ℕ → ℕ → ℝ) (n1 n2 : ℕ) (u v w b : ℕ → ℕ → ℕ → ℂ) : ℕ → ℕ → ℕ → ℂ :=
  ((List.range n1).flatMap fun i => (List.range n2).map fun j => (i, j)).foldl
    (fun b c => fun k i j => if (i, j) = c then
      multDiv1D N (m c.1 c.2) (n c.1 c.2) (fun k => u k c.1 c.2) (fun k => v k c.1 c.2) (fun k => w k c.1 c.2) (fun k => b k c.1 c.2) k
      else b k i j) b

end

end SpectralDNS.LUsolve

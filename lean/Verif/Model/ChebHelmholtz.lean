import Verif.Model.LegPoisson
import Mathlib.RingTheory.Polynomial.Chebyshev

/-!
# The stand-alone Helmholtz solver of sandbox/nonhomogen_poisson.py

`-u'' + kx^2 u = f` on (-1, 1) with Chebyshev polynomials, in one, in two and in four domains.

Matrices and vectors are functions of the indices; entries past their sizes are never looked at.  `n` is the script's `n` (line 44, 32; here any), so that there
are `n+1` points and `n+1` basis functions.  `a`, `b` and `kx` (lines 33-39) are any numbers, and the values `fj` of the right-hand side at the points are any
numbers.  Arithmetic is exact.  The names of the script are kept.  The assignments to parts of arrays and the combination of three columns into the basis are
those of `Model/LegPoisson.lean`: the two scripts have the same lines.

Not in the repository, and modelled by what the documentation says it returns: `points_and_weights` with `"GL"` (line 50; the points and weights are arguments
here), numpy's `chebvander`, `chebder` and `linalg.solve`.  `C` and `Px` (lines 78-81, 95) are computed by the script and not used.  Left out: the
options `Ceven` and `Codd` (lines 182-187) for two domains, sympy and the plots.
-/

namespace SpectralDNS.ChebH

open Polynomial Finset Sandbox

open Leg (trial unitRow setBlock addBlock setPart addPart)

/-- `V` (line 56) and `S` (line 148): `chebvander(points, n)`. -/
noncomputable def V (pts : ℕ → ℝ) (j k : ℕ) : ℝ := (Chebyshev.T ℝ (k : ℤ)).eval (pts j)

/-- `D1` (lines 60-61): the columns of `chebder(eye(n+1), 1)` are the Chebyshev coefficients of the derivatives of the Chebyshev polynomials; the last row is
zero. -/
def D1 (i k : ℕ) : ℝ := if i < k ∧ Odd (i + k) then (if i = 0 then (k : ℝ) else 2 * k) else 0

/-- `D2` (lines 64-65): `chebder(eye(n+1), 2)` differentiates twice; the last two rows are zero. -/
def D2 (n i k : ℕ) : ℝ := ∑ l ∈ range (n + 1), D1 i l * D1 l k

/-- `Vx` (line 67) and `Sx` (line 149). -/
noncomputable def Vx (n : ℕ) (pts : ℕ → ℝ) (j k : ℕ) : ℝ := ∑ i ∈ range (n + 1), V pts j i * D1 i k

/-- `Vxx` (line 68). -/
noncomputable def Vxx (n : ℕ) (pts : ℕ → ℝ) (j k : ℕ) : ℝ := ∑ i ∈ range (n + 1), V pts j i * D2 n i k

/-- `P` (lines 71-75). -/
noncomputable def P (n : ℕ) (pts : ℕ → ℝ) : ℕ → ℕ → ℝ := trial n (V pts)

/-- `Pxx` (lines 84-87). -/
noncomputable def Pxx (n : ℕ) (pts : ℕ → ℝ) : ℕ → ℕ → ℝ := trial n (Vxx n pts)

/-- The ends `(-1, 1)` at which `S` is computed (line 148). -/
def ends (j : ℕ) : ℝ := if j = 0 then -1 else 1

/-- `Tx` (lines 151-154). -/
noncomputable def Tx (n : ℕ) : ℕ → ℕ → ℝ := trial n (Vx n ends)

/-- `left` (line 155). -/
noncomputable def left (n : ℕ) : ℕ → ℝ := Tx n 0

/-- `right` (line 155). -/
noncomputable def right (n : ℕ) : ℕ → ℝ := Tx n 1

/-- `M` (line 92). -/
noncomputable def M (n : ℕ) (pts w : ℕ → ℝ) (r c : ℕ) : ℝ := ∑ j ∈ range (n + 1), w j * P n pts j r * P n pts j c

/-- `K` (line 98). -/
noncomputable def K (n : ℕ) (pts w : ℕ → ℝ) (r c : ℕ) : ℝ := -∑ j ∈ range (n + 1), w j * P n pts j r * Pxx n pts j c

/-- `np.dot(w*P.T, fj)` (line 105). -/
noncomputable def scalar (n : ℕ) (pts w fj : ℕ → ℝ) (r : ℕ) : ℝ := ∑ j ∈ range (n + 1), w j * P n pts j r * fj j

/-- `np.dot(P, u_hat)` (line 120). -/
noncomputable def backward (n : ℕ) (pts u_hat : ℕ → ℝ) (j : ℕ) : ℝ := ∑ k ∈ range (n + 1), P n pts j k * u_hat k

/-- `A` and the right-hand side in one domain (lines 105-116). -/
noncomputable def systemOne (n : ℕ) (pts w : ℕ → ℝ) (kx a b : ℝ) (fj : ℕ → ℝ) : (ℕ → ℕ → ℝ) × (ℕ → ℝ) :=
  let f_hat := scalar n pts w fj
  let A := fun r c => K n pts w r c + kx ^ 2 * M n pts w r c
  let A := unitRow 0 A
  let A := unitRow n A
  let f_hat := Function.update f_hat 0 a
  let f_hat := Function.update f_hat n b
  (A, f_hat)

/-- `A_t` and `f_hat` for the domains [-1, 0] and [0, 1] with the option `C1` (lines 141-189); `fj i` are the values in domain `i`. -/
noncomputable def systemTwo (n : ℕ) (pts w : ℕ → ℝ) (kx a b : ℝ) (fj : ℕ → ℕ → ℝ) : (ℕ → ℕ → ℝ) × (ℕ → ℝ) :=
  let scl : ℝ := 2
  let A := fun r c => K n pts w r c * scl ^ 2 + kx ^ 2 * M n pts w r c
  let A_t : ℕ → ℕ → ℝ := fun _ _ => 0
  let A_t := setBlock 0 1 0 1 (fun _ _ => 1) A_t
  let A_t := setBlock 1 n 0 (n + 1) (fun r c => A (r + 1) c) A_t
  let A_t := setBlock (n + 1) (2 * n) n (2 * n + 1) (fun r c => A (r + 1) c) A_t
  let A_t := setBlock (2 * n) (2 * n + 1) (2 * n) (2 * n + 1) (fun _ _ => 1) A_t
  let f_hat : ℕ → ℝ := fun _ => 0
  let f_hat := setPart 0 (n + 1) (scalar n pts w (fj 0)) f_hat
  let f_hat := addPart n (2 * n + 1) (scalar n pts w (fj 1)) f_hat
  let f_hat := Function.update f_hat 0 a
  let f_hat := Function.update f_hat (2 * n) b
  let A_t := setBlock n (n + 1) 0 (2 * n + 1) (fun _ _ => 0) A_t
  let A_t := setBlock n (n + 1) 0 (n + 1) (fun _ c => right n c) A_t
  let A_t := addBlock n (n + 1) n (2 * n + 1) (fun _ c => -left n c) A_t
  let f_hat := Function.update f_hat n 0
  (A_t, f_hat)

/-- `A_t` and `f_hat` for four domains (lines 205-249). -/
noncomputable def systemFour (n : ℕ) (pts w : ℕ → ℝ) (kx a b : ℝ) (fj : ℕ → ℕ → ℝ) : (ℕ → ℕ → ℝ) × (ℕ → ℝ) :=
  let scl : ℝ := 4
  let A := fun r c => K n pts w r c * scl ^ 2 + kx ^ 2 * M n pts w r c
  let A_t : ℕ → ℕ → ℝ := fun _ _ => 0
  let A_t := setBlock 0 1 0 1 (fun _ _ => 1) A_t
  let A_t := setBlock 1 n 0 (n + 1) (fun r c => A (r + 1) c) A_t
  let A_t := setBlock (n + 1) (2 * n) n (2 * n + 1) (fun r c => A (r + 1) c) A_t
  let A_t := setBlock (2 * n + 1) (3 * n) (2 * n) (3 * n + 1) (fun r c => A (r + 1) c) A_t
  let A_t := setBlock (3 * n + 1) (4 * n) (3 * n) (4 * n + 1) (fun r c => A (r + 1) c) A_t
  let A_t := setBlock (4 * n) (4 * n + 1) (4 * n) (4 * n + 1) (fun _ _ => 1) A_t
  let f_hat : ℕ → ℝ := fun _ => 0
  let f_hat := setPart 0 (n + 1) (scalar n pts w (fj 0)) f_hat
  let f_hat := addPart n (2 * n + 1) (scalar n pts w (fj 1)) f_hat
  let f_hat := addPart (2 * n) (3 * n + 1) (scalar n pts w (fj 2)) f_hat
  let f_hat := addPart (3 * n) (4 * n + 1) (scalar n pts w (fj 3)) f_hat
  let f_hat := Function.update f_hat 0 a
  let f_hat := Function.update f_hat (4 * n) b
  let A_t := setBlock n (n + 1) 0 (4 * n + 1) (fun _ _ => 0) A_t
  let A_t := setBlock (2 * n) (2 * n + 1) 0 (4 * n + 1) (fun _ _ => 0) A_t
  let A_t := setBlock (3 * n) (3 * n + 1) 0 (4 * n + 1) (fun _ _ => 0) A_t
  let A_t := setBlock n (n + 1) 0 (n + 1) (fun _ c => right n c) A_t
  let A_t := addBlock n (n + 1) n (2 * n + 1) (fun _ c => -left n c) A_t
  let A_t := setBlock (2 * n) (2 * n + 1) n (2 * n + 1) (fun _ c => right n c) A_t
  let A_t := addBlock (2 * n) (2 * n + 1) (2 * n) (3 * n + 1) (fun _ c => -left n c) A_t
  let A_t := setBlock (3 * n) (3 * n + 1) (2 * n) (3 * n + 1) (fun _ c => right n c) A_t
  let A_t := addBlock (3 * n) (3 * n + 1) (3 * n) (4 * n + 1) (fun _ c => -left n c) A_t
  let f_hat := Function.update f_hat n 0
  let f_hat := Function.update f_hat (2 * n) 0
  let f_hat := Function.update f_hat (3 * n) 0
  (A_t, f_hat)

/-- `uq` of one domain (lines 118-120). -/
noncomputable def uqOne (n : ℕ) (pts w : ℕ → ℝ) (kx a b : ℝ) (fj : ℕ → ℝ) : ℕ → ℝ :=
  let s := systemOne n pts w kx a b fj
  let u_hat := linsolve (n + 1) s.1 s.2
  backward n pts u_hat

/-- The matrix and right-hand side given to `solve` in the second solution (lines 125-131): `A[1:-1, 1:-1]` and `f_hat[1:-1]`. -/
noncomputable def systemAlt (n : ℕ) (pts w : ℕ → ℝ) (kx a b : ℝ) (fj : ℕ → ℝ) : (ℕ → ℕ → ℝ) × (ℕ → ℝ) :=
  let f_hat := scalar n pts w fj
  let A := fun r c => K n pts w r c + kx ^ 2 * M n pts w r c
  let f_hat := Function.update f_hat 1 (f_hat 1 - kx ^ 2 * (M n pts w 0 1 * a + M n pts w n 1 * b))
  let f_hat := Function.update f_hat 2 (f_hat 2 - kx ^ 2 * (M n pts w 0 2 * a + M n pts w n 2 * b))
  (fun r c => A (r + 1) (c + 1), fun r => f_hat (r + 1))

/-- `u_hat2` (lines 130-133). -/
noncomputable def u_hat2 (n : ℕ) (pts w : ℕ → ℝ) (kx a b : ℝ) (fj : ℕ → ℝ) : ℕ → ℝ :=
  let s := systemAlt n pts w kx a b fj
  let u := setPart 1 n (linsolve (n - 1) s.1 s.2) fun _ => 0
  Function.update (Function.update u 0 a) n b

/-- `uq2` (line 135). -/
noncomputable def uq2 (n : ℕ) (pts w : ℕ → ℝ) (kx a b : ℝ) (fj : ℕ → ℝ) : ℕ → ℝ := backward n pts (u_hat2 n pts w kx a b fj)

/-- `uq` of the two domains (lines 194-198). -/
noncomputable def uqTwo (n : ℕ) (pts w : ℕ → ℝ) (kx a b : ℝ) (fj : ℕ → ℕ → ℝ) (i : ℕ) : ℕ → ℝ :=
  let s := systemTwo n pts w kx a b fj
  let u_hat := linsolve (2 * n + 1) s.1 s.2
  if i = 0 then backward n pts u_hat else backward n pts fun k => u_hat (n + k)

/-- `uq` of the four domains (lines 251-253): `np.dot(P, u_hat[n*i:(i+1)*n+1])`. -/
noncomputable def uqFour (n : ℕ) (pts w : ℕ → ℝ) (kx a b : ℝ) (fj : ℕ → ℕ → ℝ) (i : ℕ) : ℕ → ℝ :=
  let s := systemFour n pts w kx a b fj
  let u_hat := linsolve (4 * n + 1) s.1 s.2
  backward n pts fun k => u_hat (n * i + k)

/-- The points `xx` (line 143: `0.5*points-0.5+i`; line 209: `0.25*points+(2*i-3)*0.25`) and `points` itself (line 50), for `m` = 2, 4 and 1 domains. -/
noncomputable def xx (m : ℕ) (pts : ℕ → ℝ) (i j : ℕ) : ℝ :=
  if m = 1 then pts j else if m = 2 then 0.5 * pts j - 0.5 + i else 0.25 * pts j + (2 * i - 3) * 0.25

end SpectralDNS.ChebH

import Verif.Model.ChebPoisson

/-!
# The stand-alone Helmholtz solver of sandbox/nonhomogen_poisson_leg.py

`-u'' + kx^2 u = f` on (-1, 1) with Legendre polynomials, in one domain (two ways), in two and in four domains.

Matrices and vectors are functions of the indices; entries past their sizes are never looked at.  `n` is the script's `n` (line 44, 32; here any), so that there
are `n+1` points and `n+1` basis functions.  `a`, `b` and `kx` (lines 33-39) are any numbers, and the values `fj` of the right-hand side at the points are any
numbers.  Arithmetic is exact.  The names of the script are kept.

Not in the repository, and modelled by what its documentation says it returns: numpy's `leggauss` (the points and weights are arguments here), `legvander`,
`legder` and `linalg.solve`; sympy, which computes `f` from a given `u`, and the plots are left out.
-/

namespace SpectralDNS.Leg

open Polynomial Finset Sandbox

/-- The Legendre polynomials, by the recurrence of `legvander`. -/
noncomputable def legendre : ℕ → ℝ[X]
  | 0 => 1
  | 1 => X
  | k + 2 => C ((2 * (k : ℝ) + 3) / (k + 2)) * X * legendre (k + 1) - C (((k : ℝ) + 1) / (k + 2)) * legendre k

/-- `V` (line 51): `legvander(points, n)`. -/
noncomputable def V (pts : ℕ → ℝ) (j k : ℕ) : ℝ := (legendre k).eval (pts j)

/-- `D1` (lines 55-56): the columns of `legder(eye(n+1))` are the Legendre coefficients of the derivatives of the Legendre polynomials; the last row is zero. -/
def D1 (i k : ℕ) : ℝ := if i < k ∧ Odd (i + k) then 2 * (i : ℝ) + 1 else 0

/-- `Vx` (line 58). -/
noncomputable def Vx (n : ℕ) (pts : ℕ → ℝ) (j k : ℕ) : ℝ := ∑ i ∈ range (n + 1), V pts j i * D1 i k

/-- The three assignments that make `P` from `V` (lines 63-65) and `Px` from `Vx` (lines 69-71). -/
noncomputable def trial (n : ℕ) (W : ℕ → ℕ → ℝ) (j k : ℕ) : ℝ :=
  if k = n then (W j 0 + W j 1) / 2 else if 1 ≤ k then W j (k - 1) - W j (k + 1) else (W j 0 - W j 1) / 2

/-- `P` (lines 61-65). -/
noncomputable def P (n : ℕ) (pts : ℕ → ℝ) : ℕ → ℕ → ℝ := trial n (V pts)

/-- `Px` (lines 68-71). -/
noncomputable def Px (n : ℕ) (pts : ℕ → ℝ) : ℕ → ℕ → ℝ := trial n (Vx n pts)

/-- `M` (line 76). -/
noncomputable def M (n : ℕ) (pts w : ℕ → ℝ) (r c : ℕ) : ℝ := ∑ j ∈ range (n + 1), w j * P n pts j r * P n pts j c

/-- `K` (line 82). -/
noncomputable def K (n : ℕ) (pts w : ℕ → ℝ) (r c : ℕ) : ℝ := ∑ j ∈ range (n + 1), w j * Px n pts j r * Px n pts j c

/-- `np.dot(w*P.T, fj)` (line 89). -/
noncomputable def scalar (n : ℕ) (pts w fj : ℕ → ℝ) (r : ℕ) : ℝ := ∑ j ∈ range (n + 1), w j * P n pts j r * fj j

/-- `np.dot(P, u_hat)` (line 104). -/
noncomputable def backward (n : ℕ) (pts u_hat : ℕ → ℝ) (j : ℕ) : ℝ := ∑ k ∈ range (n + 1), P n pts j k * u_hat k

/-- `A[r, :] = 0` and then `A[r, r] = 1` (lines 95-98). -/
def unitRow (r : ℕ) (A : ℕ → ℕ → ℝ) : ℕ → ℕ → ℝ := fun i j => if i = r then (if j = r then 1 else 0) else A i j

/-- `A[r0:r1, c0:c1] = B`. -/
def setBlock (r0 r1 c0 c1 : ℕ) (B A : ℕ → ℕ → ℝ) : ℕ → ℕ → ℝ := fun r c =>
  if r0 ≤ r ∧ r < r1 ∧ c0 ≤ c ∧ c < c1 then B (r - r0) (c - c0) else A r c

/-- `A[r0:r1, c0:c1] += B`. -/
def addBlock (r0 r1 c0 c1 : ℕ) (B A : ℕ → ℕ → ℝ) : ℕ → ℕ → ℝ := fun r c =>
  if r0 ≤ r ∧ r < r1 ∧ c0 ≤ c ∧ c < c1 then A r c + B (r - r0) (c - c0) else A r c

/-- `f[r0:r1] = g`. -/
def setPart (r0 r1 : ℕ) (g f : ℕ → ℝ) : ℕ → ℝ := fun r => if r0 ≤ r ∧ r < r1 then g (r - r0) else f r

/-- `f[r0:r1] += g`. -/
def addPart (r0 r1 : ℕ) (g f : ℕ → ℝ) : ℕ → ℝ := fun r => if r0 ≤ r ∧ r < r1 then f r + g (r - r0) else f r

/-- `A` and the right-hand side of the first solution (lines 89-100). -/
noncomputable def system1 (n : ℕ) (pts w : ℕ → ℝ) (kx a b : ℝ) (fj : ℕ → ℝ) : (ℕ → ℕ → ℝ) × (ℕ → ℝ) :=
  let f_hat := scalar n pts w fj
  let A := fun r c => K n pts w r c + kx ^ 2 * M n pts w r c
  let A := unitRow 0 A
  let A := unitRow n A
  let f_hat := Function.update f_hat 0 a
  let f_hat := Function.update f_hat n b
  (A, f_hat)

/-- `u_hat` of the first solution (line 102). -/
noncomputable def u_hat1 (n : ℕ) (pts w : ℕ → ℝ) (kx a b : ℝ) (fj : ℕ → ℝ) : ℕ → ℝ :=
  let s := system1 n pts w kx a b fj
  linsolve (n + 1) s.1 s.2

/-- The matrix and right-hand side given to `solve` in the second solution (lines 109-115): `A[1:-1, 1:-1]` and `f_hat[1:-1]`. -/
noncomputable def system2 (n : ℕ) (pts w : ℕ → ℝ) (kx a b : ℝ) (fj : ℕ → ℝ) : (ℕ → ℕ → ℝ) × (ℕ → ℝ) :=
  let f_hat := scalar n pts w fj
  let A := fun r c => K n pts w r c + kx ^ 2 * M n pts w r c
  let f_hat := Function.update f_hat 1 (f_hat 1 - kx ^ 2 * (M n pts w 0 1 * a + M n pts w n 1 * b))
  let f_hat := Function.update f_hat 2 (f_hat 2 - kx ^ 2 * (M n pts w 0 2 * a + M n pts w n 2 * b))
  (fun r c => A (r + 1) (c + 1), fun r => f_hat (r + 1))

/-- `u_hat2` (lines 114-117). -/
noncomputable def u_hat2 (n : ℕ) (pts w : ℕ → ℝ) (kx a b : ℝ) (fj : ℕ → ℝ) : ℕ → ℝ :=
  let s := system2 n pts w kx a b fj
  let u := setPart 1 n (linsolve (n - 1) s.1 s.2) fun _ => 0
  Function.update (Function.update u 0 a) n b

/-- `A_t` and `f_hat` for the domains [-1, 0] and [0, 1] (lines 127-151); `fj i` are the values in domain `i`. -/
noncomputable def systemTwo (n : ℕ) (pts w : ℕ → ℝ) (kx a b : ℝ) (fj : ℕ → ℕ → ℝ) : (ℕ → ℕ → ℝ) × (ℕ → ℝ) :=
  let scl : ℝ := 2
  let A := fun r c => K n pts w r c * scl ^ 2 + kx ^ 2 * M n pts w r c
  let A_t : ℕ → ℕ → ℝ := fun _ _ => 0
  let A_t := setBlock 0 1 0 1 (fun _ _ => 1) A_t
  let A_t := setBlock 1 n 0 (n + 1) (fun r c => A (r + 1) c) A_t
  let A_t := setBlock (n + 1) (2 * n) n (2 * n + 1) (fun r c => A (r + 1) c) A_t
  let A_t := setBlock (2 * n) (2 * n + 1) (2 * n) (2 * n + 1) (fun _ _ => 1) A_t
  let f_hat : ℕ → ℝ := fun _ => 0
  let f_hat := setPart 0 (n + 1) (scalar n pts w (fj 0)) f_hat
  let f_hat := addPart n (2 * n + 1) (scalar n pts w (fj 1)) f_hat
  let f_hat := Function.update f_hat 0 a
  let f_hat := Function.update f_hat (2 * n) b
  let A_t := setBlock n (n + 1) 0 (2 * n + 1) (fun _ _ => 0) A_t
  let A_t := setBlock n (n + 1) 0 (n + 1) (fun _ c => A n c) A_t
  let A_t := addBlock n (n + 1) n (2 * n + 1) (fun _ c => A 0 c) A_t
  (A_t, f_hat)

/-- `A_t` and `f_hat` for four domains (lines 165-191). -/
noncomputable def systemFour (n : ℕ) (pts w : ℕ → ℝ) (kx a b : ℝ) (fj : ℕ → ℕ → ℝ) : (ℕ → ℕ → ℝ) × (ℕ → ℝ) :=
  let scl : ℝ := 4
  let A := fun r c => K n pts w r c * scl ^ 2 + kx ^ 2 * M n pts w r c
  let A_t : ℕ → ℕ → ℝ := fun _ _ => 0
  let A_t := setBlock 0 1 0 1 (fun _ _ => 1) A_t
  let A_t := setBlock 1 (n + 1) 0 (n + 1) (fun r c => A (r + 1) c) A_t
  let A_t := addBlock n (2 * n + 1) n (2 * n + 1) A A_t
  let A_t := addBlock (2 * n) (3 * n + 1) (2 * n) (3 * n + 1) A A_t
  let A_t := addBlock (3 * n) (4 * n) (3 * n) (4 * n + 1) A A_t
  let A_t := setBlock (4 * n) (4 * n + 1) (4 * n) (4 * n + 1) (fun _ _ => 1) A_t
  let f_hat : ℕ → ℝ := fun _ => 0
  let f_hat := setPart 0 (n + 1) (scalar n pts w (fj 0)) f_hat
  let f_hat := addPart n (2 * n + 1) (scalar n pts w (fj 1)) f_hat
  let f_hat := addPart (2 * n) (3 * n + 1) (scalar n pts w (fj 2)) f_hat
  let f_hat := addPart (3 * n) (4 * n + 1) (scalar n pts w (fj 3)) f_hat
  let f_hat := Function.update f_hat 0 a
  let f_hat := Function.update f_hat (4 * n) b
  (A_t, f_hat)

/-- `uq` of the first solution (line 104). -/
noncomputable def uq1 (n : ℕ) (pts w : ℕ → ℝ) (kx a b : ℝ) (fj : ℕ → ℝ) : ℕ → ℝ := backward n pts (u_hat1 n pts w kx a b fj)

/-- `uq2` (line 119). -/
noncomputable def uq2 (n : ℕ) (pts w : ℕ → ℝ) (kx a b : ℝ) (fj : ℕ → ℝ) : ℕ → ℝ := backward n pts (u_hat2 n pts w kx a b fj)

/-- `uq` of the two domains (lines 153-157). -/
noncomputable def uqTwo (n : ℕ) (pts w : ℕ → ℝ) (kx a b : ℝ) (fj : ℕ → ℕ → ℝ) (i : ℕ) : ℕ → ℝ :=
  let s := systemTwo n pts w kx a b fj
  let u_hat := linsolve (2 * n + 1) s.1 s.2
  if i = 0 then backward n pts u_hat else backward n pts fun k => u_hat (n + k)

/-- `uq` of the four domains (lines 193-195): `np.dot(P, u_hat[n*i:(i+1)*n+1])`. -/
noncomputable def uqFour (n : ℕ) (pts w : ℕ → ℝ) (kx a b : ℝ) (fj : ℕ → ℕ → ℝ) (i : ℕ) : ℕ → ℝ :=
  let s := systemFour n pts w kx a b fj
  let u_hat := linsolve (4 * n + 1) s.1 s.2
  backward n pts fun k => u_hat (n * i + k)

/-- The points `xx` (line 129: `0.5*points-0.5+i`; line 169: `0.25*points+(2*i-3)*0.25`) and `points` itself (line 48), for `m` = 2, 4 and 1 domains. -/
noncomputable def xx (m : ℕ) (pts : ℕ → ℝ) (i j : ℕ) : ℝ :=
  if m = 1 then pts j else if m = 2 then 0.5 * pts j - 0.5 + i else 0.25 * pts j + (2 * i - 3) * 0.25

end SpectralDNS.Leg

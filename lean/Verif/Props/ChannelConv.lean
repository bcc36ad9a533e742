import Verif.Model.ChannelConv
import Verif.Spec.ChannelField
import Verif.Spec.Chebyshev
import Verif.Lemmas.Trig
import Mathlib.Analysis.Complex.RealDeriv
import Mathlib.Analysis.Calculus.Deriv.Add
import Mathlib.Analysis.Calculus.Deriv.Mul
import Mathlib.Analysis.Calculus.Deriv.Polynomial
import Mathlib.Analysis.SpecialFunctions.ExpDeriv

/-!
# C73: the convection of the channel solvers
-/

namespace SpectralDNS.Channel

open Polynomial Periodic Spec.Field

section field

variable {κ : Type*} [Fintype κ]

theorem hasDerivAt_field (t : ℝ) (F : κ → ℝ → ℂ) (F' : κ → ℂ) (h : ∀ k, HasDerivAt (F k) (F' k) t) :
    deriv (fun s => (∑ k, F k s).re) t = (∑ k, F' k).re := by
  have h1 : HasDerivAt (fun s => ∑ k, F k s) (∑ k, F' k) t := HasDerivAt.fun_sum fun k _ => h k
  have h2 : HasDerivAt (fun s => (∑ k, F k s).re) (∑ k, F' k).re t := by
    exact Complex.reCLM.hasFDerivAt.comp_hasDerivAt t h1
  exact h2.deriv

theorem dx_field (w k1 k2 : κ → ℝ) (a : κ → ℂ[X]) : dx (field w k1 k2 a) = field w k1 k2 fun k => derivative (a k) := by
  funext x y z
  refine hasDerivAt_field x _ _ fun k => ?_
  have h : HasDerivAt (fun s : ℝ => (a k).eval (s : ℂ)) ((derivative (a k)).eval (x : ℂ)) x := (a k).hasDerivAt (x : ℂ) |>.comp_ofReal
  exact (h.const_mul _).mul_const _

theorem dy_field (w k1 k2 : κ → ℝ) (a : κ → ℂ[X]) : dy (field w k1 k2 a) = field w k1 k2 fun k => (Complex.I * k1 k) • a k := by
  funext x y z
  refine hasDerivAt_field y _ _ fun k => ?_
  have h0 : HasDerivAt (fun s : ℝ => (s : ℂ)) 1 y := (hasDerivAt_id (y : ℂ)).comp_ofReal
  have h : HasDerivAt (fun s : ℝ => Complex.exp (Complex.I * (k1 k * s + k2 k * z)))
      (Complex.exp (Complex.I * (k1 k * y + k2 k * z)) * (Complex.I * (k1 k * 1))) y :=
    (((h0.const_mul (k1 k : ℂ)).add_const _).const_mul Complex.I).cexp
  refine (h.const_mul ((w k : ℂ) * (a k).eval (x : ℂ))).congr_deriv ?_
  rw [eval_smul, smul_eq_mul]; ring

theorem dz_field (w k1 k2 : κ → ℝ) (a : κ → ℂ[X]) : dz (field w k1 k2 a) = field w k1 k2 fun k => (Complex.I * k2 k) • a k := by
  funext x y z
  refine hasDerivAt_field z _ _ fun k => ?_
  have h0 : HasDerivAt (fun s : ℝ => (s : ℂ)) 1 z := (hasDerivAt_id (z : ℂ)).comp_ofReal
  have h : HasDerivAt (fun s : ℝ => Complex.exp (Complex.I * (k1 k * y + k2 k * s)))
      (Complex.exp (Complex.I * (k1 k * y + k2 k * z)) * (Complex.I * (k2 k * 1))) z :=
    (((h0.const_mul (k2 k : ℂ)).const_add _).const_mul Complex.I).cexp
  refine (h.const_mul ((w k : ℂ) * (a k).eval (x : ℂ))).congr_deriv ?_
  rw [eval_smul, smul_eq_mul]; ring

theorem field_sub (w k1 k2 : κ → ℝ) (a b : κ → ℂ[X]) (x y z : ℝ) :
    field w k1 k2 (fun k => a k - b k) x y z = field w k1 k2 a x y z - field w k1 k2 b x y z := by
  simp only [field]
  rw [← Complex.sub_re, ← Finset.sum_sub_distrib]
  congr 1
  refine Finset.sum_congr rfl fun k _ => ?_
  rw [eval_sub]; ring

theorem field_neg (w k1 k2 : κ → ℝ) (a : κ → ℂ[X]) (x y z : ℝ) : field w k1 k2 (fun k => -a k) x y z = -field w k1 k2 a x y z := by
  have := field_sub w k1 k2 (fun _ => 0) a x y z
  simp only [zero_sub] at this
  rw [this]
  simp [field]

end field

variable {B D C Q : Type*} [AddCommGroup B] [Module ℂ B] [AddCommGroup D] [Module ℂ D] [AddCommGroup C] [Module ℂ C]
  {N M : Fin 2 → ℕ}

/-- Coordinates of the points of the (padded) grid. -/
noncomputable def coord (L : Fin 2 → ℝ) (M : Fin 2 → ℕ) (i : Fin 2) (p : Periodic.Grid M) : ℝ := L i * ((p i : ℕ) : ℝ) / (M i : ℝ)

/-- The values of a scalar field at the grid points. -/
noncomputable def sample (L : Fin 2 → ℝ) (M : Fin 2 → ℕ) (x : Q → ℝ) (f : Scalar) : Q → Periodic.Grid M → ℝ :=
  fun q p => f (x q) (coord L M 0 p) (coord L M 1 p)

/-- The field with coefficient polynomials `a`, in a box with sides `L 0`, `L 1`. -/
noncomputable def fieldOf (N : Fin 2 → ℕ) (L : Fin 2 → ℝ) (a : RModes N → ℂ[X]) : Scalar :=
  field (rweight N) (scaledWaves N L 0) (scaledWaves N L 1) a

theorem synth_eq (L : Fin 2 → ℝ) (hL : ∀ i, L i ≠ 0) (x : Q → ℝ) (a : RModes N → ℂ[X]) :
    synth (rspace N M) x a = sample L M x (fieldOf N L a) := by
  funext q p
  simp only [synth, sample, fieldOf, field, rspace, dft, kernel]
  congr 1
  refine Finset.sum_congr rfl fun k _ => ?_
  congr 2
  rw [Fin.sum_univ_two]
  simp only [scaledWaves, coord]
  have h0 : (L 0 : ℂ) ≠ 0 := by exact_mod_cast hL 0
  have h1 : (L 1 : ℂ) ≠ 0 := by exact_mod_cast hL 1
  push_cast
  have e0 : (2 * Real.pi / L 0 * waves N 0 k : ℂ) * (L 0 * ((p 0 : ℕ) : ℂ) / (M 0 : ℂ))
      = 2 * Real.pi * (waves N 0 k * ((p 0 : ℕ) : ℂ) / (M 0 : ℂ)) := by field_simp
  have e1 : (2 * Real.pi / L 1 * waves N 1 k : ℂ) * (L 1 * ((p 1 : ℕ) : ℂ) / (M 1 : ℂ))
      = 2 * Real.pi * (waves N 1 k * ((p 1 : ℕ) : ℂ) / (M 1 : ℂ)) := by field_simp
  rw [e0, e1]; ring

/-- What the wall-normal operations must satisfy: `project` reproduces the functions of its space, and the derivative of a Dirichlet
function is in the Chebyshev space, where `Mult_CTD` finds it (C38). -/
structure Wall.Exact (W : Wall B D C Q) : Prop where
  projD : ∀ d, W.projD (W.fD d) = d
  projC : ∀ c, W.projC (W.fC c) = c
  ctd : ∀ d, W.fC (W.ctd d) = derivative (W.fD d)
  chebB : ∀ b, ∃ c, W.fC c = W.fB b
  chebD : ∀ d, ∃ c, W.fC c = W.fD d

/-- The three velocity components as functions. -/
noncomputable def fieldU (W : Wall B D C Q) (L : Fin 2 → ℝ) (U : Vel (RModes N) B D) : Scalar := fieldOf N L fun k => W.fB (U.u k)
@[inherit_doc fieldU] noncomputable def fieldV (W : Wall B D C Q) (L : Fin 2 → ℝ) (U : Vel (RModes N) B D) : Scalar := fieldOf N L fun k => W.fD (U.v k)
@[inherit_doc fieldU] noncomputable def fieldW (W : Wall B D C Q) (L : Fin 2 → ℝ) (U : Vel (RModes N) B D) : Scalar := fieldOf N L fun k => W.fD (U.w k)

/-- The transform of minus a function given by its values at the grid points. -/
noncomputable def minusTransform (W : Wall B D C Q) (L : Fin 2 → ℝ) (N M : Fin 2 → ℕ) (f : Scalar) : RModes N → D :=
  fwdD W (rspace N M) (sample L M W.x fun x y z => -f x y z)

theorem fwdD_neg (W : Wall B D C Q) (f : Q → Periodic.Grid M → ℝ) (k : RModes N) :
    (-1 : ℂ) • fwdD W (rspace N M) f k = fwdD W (rspace N M) (fun q p => -f q p) k := by
  unfold fwdD
  rw [← map_smul]
  congr 1
  funext q
  simp only [rspace, dft, Pi.smul_apply, smul_eq_mul]
  rw [← mul_assoc, mul_comm (-1 : ℂ), mul_assoc, Finset.mul_sum]
  congr 1
  refine Finset.sum_congr rfl fun p _ => ?_
  push_cast; ring

/-- C73, standard form: the transform of `-(u . grad) u`. -/
theorem C73_standard (W : Wall B D C Q) (hW : W.Exact) (L : Fin 2 → ℝ) (hL : ∀ i, L i ≠ 0) (G : Grid (RModes N))
    (h1 : G.K1 = scaledWaves N L 0) (h2 : G.K2 = scaledWaves N L 1) (U : Vel (RModes N) B D) (g : RModes N → D)
    (hU : ∀ k, ∃ d, W.fD d = derivative (W.fB (U.u k))) :
    convection .standard W (rspace N M) G U g =
      ⟨minusTransform W L N M (advect (fieldU W L U) (fieldV W L U) (fieldW W L U) (fieldU W L U)),
       minusTransform W L N M (advect (fieldU W L U) (fieldV W L U) (fieldW W L U) (fieldV W L U)),
       minusTransform W L N M (advect (fieldU W L U) (fieldV W L U) (fieldW W L U) (fieldW W L U))⟩ := by
  have e1 : ∀ k, W.fD (W.projD (derivative (W.fB (U.u k)))) = derivative (W.fB (U.u k)) := fun k => by
    obtain ⟨d, hd⟩ := hU k; rw [← hd, hW.projD]
  have e2 : ∀ d, W.fC (W.projC (derivative (W.fD d))) = derivative (W.fD d) := fun d => by rw [← hW.ctd, hW.projC]
  ext k
  all_goals
    simp only [convection, scaleVec, standardConvection, velocity, Matrix.cons_val_zero, Matrix.cons_val_one, Matrix.cons_val, bwdB, bwdD, bwdC,
      synth_eq L hL, e1, e2, ik, map_smul, fwdD_neg, minusTransform, advect, fieldU, fieldV, fieldW, dx_field, dy_field, dz_field,
      fieldOf, h1, h2]
    rfl

/-- C73, rotational form: the transform of `u x curl u`, provided `g` is the wall-normal vorticity. -/
theorem C73_vortex (W : Wall B D C Q) (hW : W.Exact) (L : Fin 2 → ℝ) (hL : ∀ i, L i ≠ 0) (G : Grid (RModes N))
    (h1 : G.K1 = scaledWaves N L 0) (h2 : G.K2 = scaledWaves N L 1) (U : Vel (RModes N) B D) (g : RModes N → D)
    (hg : g = vorticity G U) :
    convection .vortex W (rspace N M) G U g =
      let u0 := fieldU W L U
      let u1 := fieldV W L U
      let u2 := fieldW W L U
      let H := fun f : Scalar => fwdD W (rspace N M) (sample L M W.x f)
      ⟨H fun x y z => u1 x y z * curl2 u0 u1 u2 x y z - u2 x y z * curl1 u0 u1 u2 x y z,
       H fun x y z => u2 x y z * curl0 u0 u1 u2 x y z - u0 x y z * curl2 u0 u1 u2 x y z,
       H fun x y z => u0 x y z * curl1 u0 u1 u2 x y z - u1 x y z * curl0 u0 u1 u2 x y z⟩ := by
  subst hg
  have e3 : ∀ k, W.fD (vorticity G U k) = (Complex.I * G.K1 k) • W.fD (U.w k) - (Complex.I * G.K2 k) • W.fD (U.v k) := fun k => by
    rw [vorticity, map_sub, map_smul, map_smul]
  ext k
  all_goals
    simp only [convection, crossHat, cross1_3d, computeCurl, velocity, Matrix.cons_val_zero, Matrix.cons_val_one, Matrix.cons_val, bwdB, bwdD, bwdC,
      synth_eq L hL, hW.ctd, e3, ik, map_smul, neg_smul, map_neg, fieldU, fieldV, fieldW, curl0, curl1, curl2, dx_field, dy_field, dz_field,
      fieldOf, h1, h2, Function.update_self, ne_eq, Fin.reduceEq, not_false_eq_true, Function.update_of_ne]
    congr 1
    funext q p
    simp only [sample, Pi.sub_apply, Pi.mul_apply, Pi.add_apply, field_sub, field_neg]
    try ring

/-- The transform of a function given by its values at the grid points. -/
noncomputable def transform (W : Wall B D C Q) (L : Fin 2 → ℝ) (N M : Fin 2 → ℕ) (f : Scalar) : RModes N → D :=
  fwdD W (rspace N M) (sample L M W.x f)

/-- The product of two fields. -/
def times (f g : Scalar) : Scalar := fun x y z => f x y z * g x y z

/-- Coefficients of minus the divergence of the flux `(f0, f1, f2)`: `x`-derivative of the transform of `f0` (projected onto the
Dirichlet space) plus `y`- and `z`-derivatives of the transforms of `f1` and `f2`. -/
noncomputable def minusDivergence (W : Wall B D C Q) (L : Fin 2 → ℝ) (N M : Fin 2 → ℕ) (f0 f1 f2 : Scalar) (k : RModes N) : D :=
  -(W.projD (derivative (W.fD (transform W L N M f0 k))) + (Complex.I * scaledWaves N L 0 k) • transform W L N M f1 k
    + (Complex.I * scaledWaves N L 1 k) • transform W L N M f2 k)

theorem mul_sample (L : Fin 2 → ℝ) (x : Q → ℝ) (f g : Scalar) : sample L M x f * sample L M x g = sample L M x (times f g) := rfl

/-- C73, divergence form, the components parallel to the walls: `-div(u v)` and `-div(u w)`.  The wall-normal component is missing: see
`C73_divergence_false`; it is right in the coupled solvers, see `C73_coupled_divergence`. -/
theorem C73_divergence_partial (W : Wall B D C Q) (L : Fin 2 → ℝ) (hL : ∀ i, L i ≠ 0) (G : Grid (RModes N))
    (h1 : G.K1 = scaledWaves N L 0) (h2 : G.K2 = scaledWaves N L 1) (U : Vel (RModes N) B D) (g : RModes N → D) :
    let u0 := fieldU W L U
    let u1 := fieldV W L U
    let u2 := fieldW W L U
    let H := convection .divergence W (rspace N M) G U g
    H.c1 = minusDivergence W L N M (times u0 u1) (times u1 u1) (times u2 u1) ∧
    H.c2 = minusDivergence W L N M (times u0 u2) (times u1 u2) (times u2 u2) := by
  intro u0 u1 u2 H
  have hc : times u2 u1 = times u1 u2 := by funext x y z; exact mul_comm _ _
  rw [hc]
  constructor
  all_goals
    funext k
    simp only [H, u0, u1, u2, convection, scaleVec, divergenceConvection, velocity, Matrix.cons_val_zero, Matrix.cons_val_one, Matrix.cons_val, bwdB, bwdD,
      synth_eq L hL, mul_sample, ik, h1, h2, minusDivergence, transform, fieldU, fieldV, fieldW, Pi.zero_apply, zero_add, neg_smul, one_smul]

/-- The coupled solvers use the Dirichlet basis for all components. -/
structure Wall.Same (W : Wall D D C Q) : Prop where
  fB : W.fB = W.fD
  projB : W.projB = W.projD
  toB : ∀ d, W.toB d = d
  toD : ∀ d, W.toD d = d

/-- C73, divergence form in the coupled solvers: `-div(u u_i)` for all three components. -/
theorem C73_coupled_divergence (W : Wall D D C Q) (hS : W.Same) (L : Fin 2 → ℝ) (hL : ∀ i, L i ≠ 0) (G : Grid (RModes N))
    (h1 : G.K1 = scaledWaves N L 0) (h2 : G.K2 = scaledWaves N L 1) (U : Vel (RModes N) D D) :
    let u0 := fieldU W L U
    let u1 := fieldV W L U
    let u2 := fieldW W L U
    convectionCoupled .divergence W (rspace N M) G U =
      ⟨minusDivergence W L N M (times u0 u0) (times u1 u0) (times u2 u0), minusDivergence W L N M (times u0 u1) (times u1 u1) (times u2 u1),
       minusDivergence W L N M (times u0 u2) (times u1 u2) (times u2 u2)⟩ := by
  intro u0 u1 u2
  have hc : ∀ f g, times f g = times g f := fun f g => by funext x y z; exact mul_comm _ _
  rw [hc u2 u1, hc u1 u0, hc u2 u0]
  ext k
  all_goals
    simp only [u0, u1, u2, convectionCoupled, scaleVec, divergenceConvection, velocity, Matrix.cons_val_zero, Matrix.cons_val_one, Matrix.cons_val, bwdB, bwdD,
      synth_eq L hL, mul_sample, ik, h1, h2, minusDivergence, transform, fieldU, fieldV, fieldW, Pi.zero_apply, zero_add, neg_smul, one_smul,
      hS.toB, hS.toD, hS.fB, hS.projB]

/-- C73, standard form in the coupled solvers, for a wall-normal velocity with zero slope at the walls. -/
theorem C73_coupled_standard (W : Wall D D C Q) (hW : W.Exact) (L : Fin 2 → ℝ) (hL : ∀ i, L i ≠ 0) (G : Grid (RModes N))
    (h1 : G.K1 = scaledWaves N L 0) (h2 : G.K2 = scaledWaves N L 1) (U : Vel (RModes N) D D)
    (hU : ∀ k, ∃ d, W.fD d = derivative (W.fB (U.u k))) :
    convectionCoupled .standard W (rspace N M) G U =
      ⟨minusTransform W L N M (advect (fieldU W L U) (fieldV W L U) (fieldW W L U) (fieldU W L U)),
       minusTransform W L N M (advect (fieldU W L U) (fieldV W L U) (fieldW W L U) (fieldV W L U)),
       minusTransform W L N M (advect (fieldU W L U) (fieldV W L U) (fieldW W L U) (fieldW W L U))⟩ :=
  C73_standard W hW L hL G h1 h2 U 0 hU

/-- C73, rotational form in the coupled solvers. -/
theorem C73_coupled_vortex (W : Wall D D C Q) (hW : W.Exact) (hS : W.Same) (L : Fin 2 → ℝ) (hL : ∀ i, L i ≠ 0) (G : Grid (RModes N))
    (h1 : G.K1 = scaledWaves N L 0) (h2 : G.K2 = scaledWaves N L 1) (U : Vel (RModes N) D D) :
    convectionCoupled .vortex W (rspace N M) G U =
      let u0 := fieldU W L U
      let u1 := fieldV W L U
      let u2 := fieldW W L U
      let H := transform W L N M
      ⟨H fun x y z => u1 x y z * curl2 u0 u1 u2 x y z - u2 x y z * curl1 u0 u1 u2 x y z,
       H fun x y z => u2 x y z * curl0 u0 u1 u2 x y z - u0 x y z * curl2 u0 u1 u2 x y z,
       H fun x y z => u0 x y z * curl1 u0 u1 u2 x y z - u1 x y z * curl0 u0 u1 u2 x y z⟩ := by
  have e0 : ∀ (a b : ℂ) (v w : D), W.fD (W.projD (a • W.fD w - b • W.fD v)) = a • W.fD w - b • W.fD v := fun a b v w => by
    rw [← map_smul, ← map_smul, ← map_sub, hW.projD]
  have ec : ∀ p, (∃ c, W.fC c = p) → W.fC (W.projC p) = p := fun p ⟨c, hc⟩ => by rw [← hc, hW.projC]
  have e1 : ∀ (a : ℂ) (u w : D), W.fC (W.projC (a • W.fD u - derivative (W.fD w))) = a • W.fD u - derivative (W.fD w) := fun a u w => by
    obtain ⟨c, hc⟩ := hW.chebD u
    exact ec _ ⟨a • c - W.ctd w, by rw [map_sub, map_smul, hc, hW.ctd]⟩
  have e2 : ∀ (a : ℂ) (u v : D), W.fC (W.projC (derivative (W.fD v) - a • W.fD u)) = derivative (W.fD v) - a • W.fD u := fun a u v => by
    obtain ⟨c, hc⟩ := hW.chebD u
    exact ec _ ⟨W.ctd v - a • c, by rw [map_sub, map_smul, hc, hW.ctd]⟩
  ext k
  all_goals
    simp only [convectionCoupled, crossHat, cross1_3d, computeCurlCoupled, velocity, Matrix.cons_val_zero, Matrix.cons_val_one, Matrix.cons_val, bwdB, bwdD, bwdC,
      synth_eq L hL, e0, e1, e2, hS.fB, transform, fieldU, fieldV, fieldW, curl0, curl1, curl2, dx_field, dy_field, dz_field,
      fieldOf, h1, h2, Function.update_self, ne_eq, Fin.reduceEq, not_false_eq_true, Function.update_of_ne]
    congr 1
    funext q p
    simp only [sample, Pi.sub_apply, Pi.mul_apply, field_sub]

/-- C73, skew form: the mean of the standard and the divergence form. -/
theorem C73_skew (W : Wall B D C Q) (T : Space (RModes N) (Periodic.Grid M)) (G : Grid (RModes N)) (U : Vel (RModes N) B D) (g : RModes N → D) (k : RModes N) :
    let H := fun kind => convection kind W T G U g
    (2 : ℂ) • (H .skew).c0 k = (H .standard).c0 k + (H .divergence).c0 k ∧
    (2 : ℂ) • (H .skew).c1 k = (H .standard).c1 k + (H .divergence).c1 k ∧
    (2 : ℂ) • (H .skew).c2 k = (H .standard).c2 k + (H .divergence).c2 k := by
  simp only [convection, scaleVec, divergenceConvection, Pi.zero_apply, zero_add, smul_smul, smul_add]
  norm_num
  refine ⟨?_, ?_, ?_⟩ <;> abel

/-- C73, skew form of Coupled: the mean of the standard and the divergence form. -/
theorem C73_coupled_skew (W : Wall D D C Q) (T : Space (RModes N) (Periodic.Grid M)) (G : Grid (RModes N)) (U : Vel (RModes N) D D) (k : RModes N) :
    let H := fun kind => convectionCoupled kind W T G U
    (2 : ℂ) • (H .skew).c0 k = (H .standard).c0 k + (H .divergence).c0 k ∧
    (2 : ℂ) • (H .skew).c1 k = (H .standard).c1 k + (H .divergence).c1 k ∧
    (2 : ℂ) • (H .skew).c2 k = (H .standard).c2 k + (H .divergence).c2 k := by
  simp only [convectionCoupled, scaleVec, divergenceConvection, Pi.zero_apply, zero_add, smul_smul, smul_add]
  norm_num
  refine ⟨?_, ?_, ?_⟩ <;> abel

/-- Forward after backward transform: exact for real fields without Nyquist modes. -/
theorem fwdD_synth (W : Wall B D C Q) (hrt : ∀ d, W.fwd (fun q => (W.fD d).eval (W.x q : ℂ)) = d) (hN : ∀ i, 0 < N i) (hNM : ∀ i, N i ≤ M i)
    (a : RModes N → D) (hmask : ∀ k, nyquistMask N k = false → a k = 0)
    (hherm : ∀ k k', (∀ i, waves N i k' = -waves N i k) → W.fD (a k') = (W.fD (a k)).map (starRingEnd ℂ)) :
    fwdD W (rspace N M) (synth (rspace N M) W.x fun k => W.fD (a k)) = a := by
  funext k
  unfold fwdD synth
  rw [← hrt (a k)]
  congr 1
  funext q
  rw [rspace_inverse N M hN hNM]
  · intro k hk; simp only [hmask k hk, map_zero, eval_zero]
  · intro k k' h
    beta_reduce
    rw [hherm k k' h]
    have : ((W.x q : ℝ) : ℂ) = (starRingEnd ℂ) (W.x q : ℂ) := (Complex.conj_ofReal _).symm
    conv_lhs => rw [this, eval_map, eval₂_at_apply]

/-- C73: if the products are represented by the basis, the divergence form is minus the divergence of the flux, as a function. -/
theorem C73_divergence_resolved (W : Wall B D C Q) (hW : W.Exact) (L : Fin 2 → ℝ) (hL : ∀ i, L i ≠ 0) (f0 f1 f2 : Scalar)
    (a0 a1 a2 : RModes N → D) (h0 : f0 = fieldOf N L fun k => W.fD (a0 k)) (h1 : f1 = fieldOf N L fun k => W.fD (a1 k))
    (h2 : f2 = fieldOf N L fun k => W.fD (a2 k)) (hslope : ∀ k, ∃ d, W.fD d = derivative (W.fD (a0 k)))
    (hrt : ∀ d, W.fwd (fun q => (W.fD d).eval (W.x q : ℂ)) = d) (hN : ∀ i, 0 < N i) (hNM : ∀ i, N i ≤ M i)
    (hmask : ∀ a ∈ [a0, a1, a2], ∀ k, nyquistMask N k = false → a k = 0)
    (hherm : ∀ a ∈ [a0, a1, a2], ∀ k k', (∀ i, waves N i k' = -waves N i k) → W.fD (a k') = (W.fD (a k)).map (starRingEnd ℂ)) :
    fieldOf N L (fun k => W.fD (minusDivergence W L N M f0 f1 f2 k)) = fun x y z => -(dx f0 x y z + dy f1 x y z + dz f2 x y z) := by
  have ht : ∀ a ∈ [a0, a1, a2], transform W L N M (fieldOf N L fun k => W.fD (a k)) = a := fun a ha => by
    rw [transform, ← synth_eq L hL]
    exact fwdD_synth W hrt hN hNM a (hmask a ha) (hherm a ha)
  have e : ∀ k, W.fD (minusDivergence W L N M f0 f1 f2 k) = -(derivative (W.fD (a0 k)) - (-((Complex.I * scaledWaves N L 0 k) • W.fD (a1 k)
      - -((Complex.I * scaledWaves N L 1 k) • W.fD (a2 k))))) := fun k => by
    obtain ⟨d, hd⟩ := hslope k
    rw [minusDivergence, h0, h1, h2, ht a0 (by simp), ht a1 (by simp), ht a2 (by simp), ← hd, hW.projD]
    simp only [map_neg, map_add, map_smul]
    abel
  simp only [e]
  funext x y z
  rw [h0, h1, h2]
  unfold fieldOf
  rw [dx_field, dy_field, dz_field, field_neg, field_sub, field_neg, field_sub, field_neg]
  ring

end SpectralDNS.Channel

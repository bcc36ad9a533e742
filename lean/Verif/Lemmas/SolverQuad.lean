import Verif.Props.MHD
import Verif.Props.Bq
import Verif.Props.VV
import Verif.Props.Invariants
import Verif.Lemmas.Quadratic

/-!
# The right-hand sides of the periodic solvers are polynomials of degree two in the stored coefficients
-/

namespace SpectralDNS.Periodic

open Complex Spec

variable {d : ℕ} {ι X : Type*}

/-- Both transforms are linear over the reals. -/
def LinearSpace (T : Space ι X) : Prop := IsLin T.forward ∧ IsLin T.backward

theorem dft_linear [Fintype ι] [Fintype X] (e : ι → X → ℂ) (w : ι → ℝ) : LinearSpace (dft e w) := by
  constructor
  · refine ⟨⟨⟨(dft e w).forward, fun f g => ?_⟩, fun r f => ?_⟩, fun _ => rfl⟩
    · funext k
      simp only [dft, Pi.add_apply, ofReal_add, add_mul, Finset.sum_add_distrib, mul_add]
    · funext k
      simp only [dft, Pi.smul_apply, smul_eq_mul, ofReal_mul, RingHom.id_apply, real_smul]
      rw [mul_left_comm, Finset.mul_sum]
      simp only [Finset.mul_sum]
      exact Finset.sum_congr rfl fun x _ => by ring
  · refine ⟨⟨⟨(dft e w).backward, fun f g => ?_⟩, fun r f => ?_⟩, fun _ => rfl⟩
    · funext x
      simp only [dft, Pi.add_apply, mul_add, add_mul, Finset.sum_add_distrib, add_re]
    · funext x
      simp only [dft, Pi.smul_apply, smul_eq_mul, RingHom.id_apply, real_smul]
      rw [← re_ofReal_mul, Finset.mul_sum]
      exact congrArg re (Finset.sum_congr rfl fun k _ => by ring)

variable {T : Space ι X} {E : Type*} [AddCommGroup E] [Module ℝ E]

theorem LinearSpace.back (H : LinearSpace T) {f : E → ι → ℂ} (hf : ∀ k, IsLin fun u => f u k) (x : X) : IsLin fun u => T.backward (f u) x :=
  ((IsLin.pi hf).comp H.2).apply x

theorem LinearSpace.forw (H : LinearSpace T) {f : E → X → ℝ} (hf : ∀ x, IsQuad fun u => f u x) (k : ι) : IsQuad fun u => T.forward (f u) k :=
  ((IsQuad.pi hf).lin H.1).apply k

/-- A component of the state. -/
theorem comp_lin (i : Fin d) (k : ι) : IsLin fun u : SArr d ι => u i k := (IsLin.id.apply i).apply k

theorem advection_quad (H : LinearSpace T) (K : Fin d → ι → ℝ) (i : Fin d) (k : ι) :
    IsQuad fun u : SArr d ι => advection T.forward T.backward K u i k :=
  H.forw (fun x => IsQuad.sum _ fun j _ => (H.back (fun k => comp_lin j k) x).mul (H.back (fun k => (comp_lin i k).const_mul _) x)) k

theorem divergenceForm_quad (H : LinearSpace T) (K : Fin d → ι → ℝ) (i : Fin d) (k : ι) :
    IsQuad fun u : SArr d ι => divergenceForm T.forward T.backward K u i k :=
  IsQuad.sum _ fun j _ => (H.forw (fun x => (H.back (fun k => comp_lin i k) x).mul (H.back (fun k => comp_lin j k) x)) k).const_mul _

theorem curl_lin (K : Fin 3 → ι → ℝ) {f : E → SArr 3 ι} (hf : ∀ i k, IsLin fun u => f u i k) (i : Fin 3) (k : ι) :
    IsLin fun u => curl K (f u) i k :=
  (((hf (i + 2) k).const_mul _).sub ((hf (i + 1) k).const_mul _)).const_mul _

theorem cross_quad {f g : E → Fin 3 → ℝ} (hf : ∀ i, IsLin fun u => f u i) (hg : ∀ i, IsLin fun u => g u i) (i : Fin 3) :
    IsQuad fun u => cross (f u) (g u) i := ((hf _).mul (hg _)).sub ((hf _).mul (hg _))

theorem lamb_quad (H : LinearSpace T) (K : Fin 3 → ι → ℝ) (i : Fin 3) (k : ι) :
    IsQuad fun u : SArr 3 ι => lamb T.forward T.backward K u i k :=
  H.forw (fun x => cross_quad (fun j => H.back (fun k => comp_lin j k) x)
    (fun j => H.back (fun k => curl_lin K (fun i k => comp_lin i k) j k) x) i) k

/-- Each of the four forms of convection. -/
theorem conv_quad (H : LinearSpace T) (K : Fin 3 → ι → ℝ) (name : String) (conv) (hname : (getConvection name :
    Option (Scratch 3 ι X → SArr 3 ι → SArr 3 ι → Space ι X → (Fin 3 → ι → ℝ) → SArr 3 ι)) = some conv) (s : Scratch 3 ι X)
    (rhs : SArr 3 ι) (i : Fin 3) (k : ι) : IsQuad fun u => conv s rhs u T K i k := by
  have hf := C06_convection_forms (ι := ι) (X := X) name
  rw [hname] at hf
  dsimp only at hf
  by_cases h1 : name = "Standard"
  · refine (advection_quad H K i k).neg.congr fun u => ?_
    rcases hf s rhs u T K i k with h | h | h | h
    · exact h.2
    all_goals exact absurd (h1.symm.trans h.1) (by decide)
  by_cases h2 : name = "Divergence"
  · refine (divergenceForm_quad H K i k).neg.congr fun u => ?_
    rcases hf s rhs u T K i k with h | h | h | h
    · exact absurd h.1 h1
    · exact h.2
    all_goals exact absurd (h2.symm.trans h.1) (by decide)
  by_cases h3 : name = "Skewed"
  · refine (((advection_quad H K i k).add (divergenceForm_quad H K i k)).neg.mul_const (1 / 2)).congr fun u => ?_
    rcases hf s rhs u T K i k with h | h | h | h
    · exact absurd h.1 h1
    · exact absurd h.1 h2
    · rw [h.2]; ring
    · exact absurd (h3.symm.trans h.1) (by decide)
  · refine (lamb_quad H K i k).congr fun u => ?_
    rcases hf s rhs u T K i k with h | h | h | h
    · exact absurd h.1 h1
    · exact absurd h.1 h2
    · exact absurd h.1 h3
    · exact h.2

/-- The result does not depend on the previous content of `rhs`. -/
theorem conv_indep (name : String) (conv) (hname : (getConvection name :
    Option (Scratch 3 ι X → SArr 3 ι → SArr 3 ι → Space ι X → (Fin 3 → ι → ℝ) → SArr 3 ι)) = some conv) (s : Scratch 3 ι X)
    (K : Fin 3 → ι → ℝ) (rhs rhs' u : SArr 3 ι) : conv s rhs u T K = conv s rhs' u T K := by
  have hf := C06_convection_forms (ι := ι) (X := X) name
  rw [hname] at hf
  dsimp only at hf
  funext i k
  rcases hf s rhs u T K i k with ⟨h, e⟩ | ⟨h, e⟩ | ⟨h, e⟩ | ⟨h, e⟩ <;>
    rcases hf s rhs' u T K i k with ⟨h', e'⟩ | ⟨h', e'⟩ | ⟨h', e'⟩ | ⟨h', e'⟩ <;>
    first
    | exact e.trans e'.symm
    | exact absurd (h.symm.trans h') (by decide)

theorem mask_quad (mask : Option (ι → Bool)) {f : E → SArr d ι} (hf : ∀ i k, IsQuad fun u => f u i k) (i : Fin d) (k : ι) :
    IsQuad fun u => maskNyquist mask (f u) i k := by
  rcases mask with _ | m
  · exact hf i k
  · exact (hf i k).mul_const _

/-- NS and NS2D. -/
theorem rhsNS_quad (c : Ctx d ι X) (conv : SArr d ι → SArr d ι → SArr d ι) (rhs : SArr d ι)
    (hc : ∀ i k, IsQuad fun u => conv rhs u i k) : IsQuad (rhsNS c conv rhs) := by
  have hm := mask_quad c.mask hc
  refine IsQuad.pi fun i => IsQuad.pi fun k => ?_
  exact (((hm i k).sub ((IsQuad.sum _ fun j _ => (hm j k).mul_const _).mul_const _)).sub ((comp_lin i k).quad.const_mul _)).add
    (IsQuad.const _)

theorem conv2D_quad (H : LinearSpace T) (K : Fin 2 → ι → ℝ) (w0 : ι → ℂ) (rhs : SArr 2 ι) (i : Fin 2) (k : ι) :
    IsQuad fun u => conv2DVortex w0 rhs u T K i k := by
  have hw : ∀ x, IsLin fun u : SArr 2 ι => T.backward (cross2_2d w0 K u) x := fun x => by
    simp only [cross2_2d_eq]
    exact H.back (fun k => (((comp_lin 1 k).const_mul _).sub ((comp_lin 0 k).const_mul _)).const_mul _) x
  have hb : ∀ j x, IsLin fun u : SArr 2 ι => T.backward (u j) x := fun j x => H.back (fun k => comp_lin j k) x
  match i with
  | 0 => simp only [(conv2D_eq w0 rhs _ T K).1]; exact H.forw (fun x => (hb 1 x).mul (hw x)) k
  | 1 => simp only [(conv2D_eq w0 rhs _ T K).2]; exact H.forw (fun x => (hb 0 x).neg.mul (hw x)) k

/-- VV. -/
theorem rhsVV_quad (c : Ctx 3 ι X) (H : LinearSpace c.Tp) (s : Scratch 3 ι X) (rhs : SArr 3 ι) : IsQuad (rhsVV c s rhs) := by
  have hc : ∀ i k, IsQuad fun w => convVV s rhs w c.Tp c.K (K_over_K2 c.K) i k := by
    intro i k
    have h1 : ∀ j k, IsQuad fun w : SArr 3 ι => c.Tp.forward (fun x => cross (fun j => c.Tp.backward (curl (K_over_K2 c.K) w j) x)
        (fun j => c.Tp.backward (w j) x) j) k := fun j k =>
      H.forw (fun x => cross_quad (fun j => H.back (fun k => curl_lin _ (fun i k => comp_lin i k) j k) x)
        (fun j => H.back (fun k => comp_lin j k) x) j) k
    have h2 : ∀ w, convVV s rhs w c.Tp c.K (K_over_K2 c.K) i k = curl c.K (fun j k => c.Tp.forward (fun x =>
        cross (fun j => c.Tp.backward (curl (K_over_K2 c.K) w j) x) (fun j => c.Tp.backward (w j) x) j) k) i k := by
      intro w
      simp only [convVV, cross2_3d_eq, Cross, Space.vforward, cross1_3d_eq, compute_velocity, velocityHat]
      rfl
    simp only [h2]
    exact (((h1 (i + 2) k).const_mul _).sub ((h1 (i + 1) k).const_mul _)).const_mul _
  have hm := mask_quad c.mask hc
  refine IsQuad.pi fun i => IsQuad.pi fun k => ?_
  exact ((hm i k).sub ((comp_lin i k).quad.const_mul _)).add (IsQuad.const _)

/-- MHD. -/
theorem rhsMHD_quad (c : Ctx 3 ι X) (H : LinearSpace c.Tp) (eta : ℝ) (rhs : SArr 3 ι × SArr 3 ι) :
    IsQuad (rhsMHD c eta (fun _ ub => convMHD ub c.Tp c.K) rhs) := by
  have hu : ∀ i k, IsLin fun ub : SArr 3 ι × SArr 3 ι => ub.1 i k := fun i k => (IsLin.id.fst.apply i).apply k
  have hb : ∀ i k, IsLin fun ub : SArr 3 ι × SArr 3 ι => ub.2 i k := fun i k => (IsLin.id.snd.apply i).apply k
  have hZ : ∀ i j k, IsQuad fun ub : SArr 3 ι × SArr 3 ι => c.Tp.forward (fun x =>
      (c.Tp.backward (ub.1 i) x + c.Tp.backward (ub.2 i) x) * (c.Tp.backward (ub.1 j) x - c.Tp.backward (ub.2 j) x)) k := fun i j k =>
    H.forw (fun x => ((H.back (fun k => hu i k) x).add (H.back (fun k => hb i k) x)).mul
      ((H.back (fun k => hu j k) x).sub (H.back (fun k => hb j k) x))) k
  have h1 : ∀ i k, IsQuad fun ub : SArr 3 ι × SArr 3 ι => (convMHD ub c.Tp c.K).1 i k := fun i k => by
    have := (((((hZ i 0 k).add (hZ 0 i k)).const_mul (c.K 0 k : ℂ)).add (((hZ i 1 k).add (hZ 1 i k)).const_mul (c.K 1 k : ℂ))).add
      (((hZ i 2 k).add (hZ 2 i k)).const_mul (c.K 2 k : ℂ))).const_mul (-I) |>.mul_const (2.0 : ℂ)⁻¹
    refine this.congr fun ub => ?_
    simp only [convMHD_eq_set_Elsasser, set_Elsasser, div_eq_mul_inv]
  have h2 : ∀ i k, IsQuad fun ub : SArr 3 ι × SArr 3 ι => (convMHD ub c.Tp c.K).2 i k := fun i k => by
    have := (((((hZ 0 i k).sub (hZ i 0 k)).const_mul (c.K 0 k : ℂ)).add (((hZ 1 i k).sub (hZ i 1 k)).const_mul (c.K 1 k : ℂ))).add
      (((hZ 2 i k).sub (hZ i 2 k)).const_mul (c.K 2 k : ℂ))).const_mul I |>.mul_const (2.0 : ℂ)⁻¹
    refine this.congr fun ub => ?_
    simp only [convMHD_eq_set_Elsasser, set_Elsasser, div_eq_mul_inv]
  have m1 := mask_quad c.mask h1
  have m2 := mask_quad c.mask h2
  refine IsQuad.prod (f := fun ub => (rhsMHD c eta (fun _ ub => convMHD ub c.Tp c.K) rhs ub).1)
    (g := fun ub => (rhsMHD c eta (fun _ ub => convMHD ub c.Tp c.K) rhs ub).2)
    (IsQuad.pi fun i => IsQuad.pi fun k => ?_) (IsQuad.pi fun i => IsQuad.pi fun k => ?_)
  · exact ((m1 i k).sub ((IsQuad.sum _ fun j _ => (m1 j k).mul_const _).mul_const _)).sub ((hu i k).quad.const_mul _)
  · exact (m2 i k).sub ((hb i k).quad.const_mul _)

/-- Bq2D. -/
theorem rhsBq_quad (c : Ctx 2 ι X) (H : LinearSpace c.Tp) (Ri Pr : ℝ) (w0 : SArr 2 ι) (rhs : SArr 2 ι × (ι → ℂ)) :
    IsQuad (rhsBq c Ri Pr (fun r ur => convBq w0 r ur c.Tp c.K) rhs) := by
  have hu : ∀ i k, IsLin fun ur : SArr 2 ι × (ι → ℂ) => ur.1 i k := fun i k => (IsLin.id.fst.apply i).apply k
  have hr : ∀ k, IsLin fun ur : SArr 2 ι × (ι → ℂ) => ur.2 k := fun k => IsLin.id.snd.apply k
  have hub : ∀ j x, IsLin fun ur : SArr 2 ι × (ι → ℂ) => c.Tp.backward (ur.1 j) x := fun j x => H.back (fun k => hu j k) x
  have hrb : ∀ x, IsLin fun ur : SArr 2 ι × (ι → ℂ) => c.Tp.backward ur.2 x := fun x => H.back hr x
  have hw : ∀ x, IsLin fun ur : SArr 2 ι × (ι → ℂ) => c.Tp.backward (fun k => I * (c.K 0 k * ur.1 1 k - c.K 1 k * ur.1 0 k)) x := fun x =>
    H.back (fun k => (((hu 1 k).const_mul _).sub ((hu 0 k).const_mul _)).const_mul _) x
  have h1 : ∀ i k, IsQuad fun ur : SArr 2 ι × (ι → ℂ) => (convBq w0 rhs ur c.Tp c.K).1 i k := fun i k => by
    simp only [convBq_eq]
    match i with
    | 0 => exact H.forw (fun x => (hub 1 x).mul (hw x)) k
    | 1 => exact H.forw (fun x => ((hub 0 x).mul (hw x)).neg) k
  have h2 : ∀ k, IsQuad fun ur : SArr 2 ι × (ι → ℂ) => (convBq w0 rhs ur c.Tp c.K).2 k := fun k => by
    simp only [convBq_eq]
    exact (IsQuad.sum _ fun j _ => (H.forw (fun x => (hub j x).mul (hrb x)) k).const_mul _).neg
  have m1 := mask_quad c.mask h1
  have m2 : ∀ k, IsQuad fun ur : SArr 2 ι × (ι → ℂ) => maskNyquist (d := 1) c.mask (fun _ => (convBq w0 rhs ur c.Tp c.K).2) 0 k := fun k =>
    mask_quad (d := 1) c.mask (fun _ k => h2 k) 0 k
  have hP : ∀ k, IsQuad fun ur : SArr 2 ι × (ι → ℂ) => (∑ j, maskNyquist c.mask (convBq w0 rhs ur c.Tp c.K).1 j k * (K_over_K2 c.K j k : ℂ)) -
      Ri * ur.2 k * K_over_K2 c.K 1 k := fun k =>
    (IsQuad.sum _ fun j _ => (m1 j k).mul_const _).sub (((hr k).const_mul _).mul_const _).quad
  refine IsQuad.prod (f := fun ur => (rhsBq c Ri Pr (fun r ur => convBq w0 r ur c.Tp c.K) rhs ur).1)
    (g := fun ur => (rhsBq c Ri Pr (fun r ur => convBq w0 r ur c.Tp c.K) rhs ur).2)
    (IsQuad.pi fun i => IsQuad.pi fun k => ?_) (IsQuad.pi fun k => ?_)
  · match i with
    | 0 => exact ((m1 0 k).sub ((hP k).mul_const _)).sub ((hu 0 k).quad.const_mul _)
    | 1 => exact ((m1 1 k).sub ((hP k).mul_const _)).sub (((hu 1 k).quad.const_mul _).add ((hr k).quad.const_mul _))
  · exact ((m2 k).sub (((hr k).const_mul ((c.nu * K2 c.K k : ℝ) : ℂ)).mul_const (Pr : ℂ)⁻¹).quad).congr fun ur => by
      simp only [rhsBq, add_pressure_diffusionBq, div_eq_mul_inv]

end SpectralDNS.Periodic

import Verif.Model.Pressure
import Verif.Spec.Pressure
import Verif.Props.GalerkinField

/-!
# C87: the pressure computed by KMM
-/

namespace SpectralDNS.Channel

open Polynomial Spec.Pressure

variable {n : ℕ}

theorem degree_chebT (j : ℕ) : (chebT j).degree = (j + 0 : ℕ) := degree_cheb j

theorem expandC_degree (f : ℕ → ℝ[X]) (s a : ℕ) (hf : ∀ j, (f j).degree = (j + s : ℕ)) (v : Fin a → ℂ) : (expandC f v).degree < (a + s : ℕ) := by
  rw [expandC_apply]
  refine lt_of_le_of_lt (degree_sum_le _ _) ((Finset.sup_lt_iff (by exact_mod_cast WithBot.bot_lt_coe _)).2 fun j _ => ?_)
  refine lt_of_le_of_lt (degree_smul_le _ _) (lt_of_le_of_lt degree_map_le ?_)
  rw [hf]
  exact_mod_cast (by have := j.2; omega : (j : ℕ) + s < a + s)

theorem exists_chebC (m : ℕ) (r : ℂ[X]) (hr : r.degree < m) : ∃ v : Fin m → ℂ, expandC chebT v = r := by
  obtain ⟨S, hS⟩ := exists_expandC (fun j => (X : ℝ[X]) ^ j) chebT (a := m) (b := m) fun j =>
    exists_cheb m _ (by rw [degree_X_pow]; exact_mod_cast j.2)
  refine ⟨S fun j => r.coeff j, ?_⟩
  rw [hS, expandC_apply]
  ext k
  simp only [finset_sum_coeff, coeff_smul, Polynomial.map_pow, map_X, coeff_X_pow, smul_eq_mul, mul_ite, mul_one, mul_zero]
  by_cases hk : k < m
  · rw [Finset.sum_eq_single ⟨k, hk⟩]
    · simp
    · intro j _ hj
      rw [if_neg]
      rintro rfl
      exact hj rfl
    · simp
  · rw [Finset.sum_eq_zero, coeff_eq_zero_of_degree_lt (lt_of_lt_of_le hr (by exact_mod_cast not_lt.1 hk))]
    intro j _
    rw [if_neg]
    have := j.2
    omega

/-- A polynomial of degree less than `m ≤ N` is zero if its products with the Chebyshev polynomials of these degrees are. -/
theorem eq_zero_of_tested (q : Quad) (N m : ℕ) (h2 : 2 ≤ N) (hm : m ≤ N) (r : ℂ[X]) (hr : r.degree < m)
    (h : ∀ i : Fin m, scalarProduct (a := m) q N chebT r i = 0) : r = 0 := by
  obtain ⟨v, rfl⟩ := exists_chebC m r hr
  have := mass_inv q N m chebT 0 (by omega) h2 degree_chebT v
  rw [show scalarProduct (a := m) q N chebT (expandC chebT v) = 0 from funext h, map_zero] at this
  rw [← this, map_zero]

/-- The product of a polynomial of degree less than `N - 1` with the last Chebyshev polynomial vanishes. -/
theorem tested_last (q : Quad) (n : ℕ) (r : ℂ[X]) (hr : r.degree < (n + 3 : ℕ)) : scalarProduct (a := n + 4) q (n + 4) chebT r (Fin.last _) = 0 := by
  obtain ⟨v, rfl⟩ := exists_chebC (n + 3) r hr
  have h := congrFun (entry_test (a := n + 4) q (n + 4) (n + 3) 0 chebT chebT v) (Fin.last _)
  rw [Function.iterate_zero, id] at h
  rw [← h]
  simp only [matC, Matrix.toLin'_apply, Matrix.mulVec, dotProduct, Matrix.map_apply, entry, Function.iterate_zero, id]
  refine Finset.sum_eq_zero fun j _ => ?_
  have : quadrature q (n + 4) (chebT j * chebT (Fin.last (n + 3) : Fin (n + 4))) = 0 := by
    rw [chebT, chebT, quad_TT q (n + 2) _ _ (by have := j.2; omega) (by simp), if_neg]
    have := j.2
    simp
    omega
  rw [this]
  simp

theorem derivative_lt {m : ℕ} (p : ℂ[X]) (h : p.degree < (m + 1 : ℕ)) : (derivative p).degree < (m : ℕ) := by
  by_cases h1 : derivative p = 0
  · rw [h1, degree_zero]
    exact WithBot.bot_lt_coe _
  have h0 : p ≠ 0 := fun h0 => h1 (by rw [h0, derivative_zero])
  have := degree_derivative_lt h0
  rw [degree_eq_natDegree h0] at h this
  rw [degree_eq_natDegree h1] at this ⊢
  have a : p.natDegree < m + 1 := by exact_mod_cast h
  have b : (derivative p).natDegree < p.natDegree := by exact_mod_cast this
  exact_mod_cast (by omega : (derivative p).natDegree < m)

theorem derivative_degree_cheb (v : Fin (n + 4) → ℂ) : (derivative (expandC chebT v)).degree < (n + 3 : ℕ) :=
  derivative_lt _ (expandC_degree chebT 0 _ degree_chebT v)

/-- The rows of the system. -/
theorem pressureMatrix_row (q : Quad) (v : Fin (n + 4) → ℂ) (i : Fin (n + 4)) : matC (pressureMatrix q n) v i =
    if (i : ℕ) = n + 3 then v 0 else scalarProduct (a := n + 4) q (n + 4) chebT (derivative (expandC chebT v)) i := by
  have h := congrFun (entry_test (a := n + 4) q (n + 4) (n + 4) 1 chebT chebT v) i
  rw [Function.iterate_one] at h
  split_ifs with hi
  · have hi' : i = Fin.last _ := Fin.ext hi
    subst hi'
    rw [tested_last q n _ (derivative_degree_cheb v)] at h
    simp only [matC, Matrix.toLin'_apply, Matrix.mulVec, dotProduct, Matrix.map_apply] at h ⊢
    rw [Fin.sum_univ_succ] at h ⊢
    have h0 : entry q (n + 4) chebT chebT 1 (n + 4) (n + 4) (Fin.last _) 0 = 0 := by
      simp [entry, chebT]
    rw [h0] at h
    simp only [Complex.ofReal_zero, zero_mul, zero_add] at h
    have e : ∀ j : Fin (n + 3), pressureMatrix q n (Fin.last _) j.succ = entry q (n + 4) chebT chebT 1 (n + 4) (n + 4) (Fin.last _) j.succ := by
      intro j
      simp [pressureMatrix]
    simp only [e]
    rw [h]
    simp [pressureMatrix]
  · rw [← h]
    simp only [matC, Matrix.toLin'_apply, Matrix.mulVec, dotProduct, Matrix.map_apply]
    refine Finset.sum_congr rfl fun j _ => ?_
    rw [pressureMatrix, if_neg fun hh => hi hh.1]

theorem expandC_single (f : ℕ → ℝ[X]) (a : ℕ) (c : ℂ) : expandC f (Pi.single (0 : Fin (a + 1)) c) = c • (f 0).map Complex.ofRealHom := by
  rw [expandC_apply, Fin.sum_univ_succ]
  simp

/-- The system has at most one solution. -/
theorem pressureMatrix_injective (q : Quad) (n : ℕ) : Function.Injective (matC (pressureMatrix q n)) := by
  rw [← LinearMap.ker_eq_bot, LinearMap.ker_eq_bot']
  intro v hv
  have hd : derivative (expandC chebT v) = 0 := by
    refine eq_zero_of_tested q (n + 4) (n + 3) (by omega) (by omega) _ (derivative_degree_cheb v) fun i => ?_
    have h := pressureMatrix_row q v i.castSucc
    rw [hv, if_neg (by simp; have := i.2; omega)] at h
    rw [scalarProduct_apply] at h ⊢
    exact h.symm
  have h0 : v 0 = 0 := by
    have h := pressureMatrix_row q v (Fin.last _)
    rw [hv, if_pos (by simp)] at h
    exact h.symm
  have hc := eq_C_of_derivative_eq_zero hd
  have hs : expandC chebT v = expandC chebT (Pi.single (0 : Fin (n + 4)) ((expandC chebT v).coeff 0)) := by
    rw [expandC_single]
    conv_lhs => rw [hc]
    simp [chebT, smul_eq_C_mul]
  have := expandC_phi_injective (n + 4) chebT 0 degree_chebT hs
  rw [this, Pi.single_eq_same] at h0
  rw [this, h0, Pi.single_zero]

theorem pressureMatrix_det (q : Quad) (n : ℕ) : IsUnit (pressureMatrix q n).det := by
  rw [isUnit_iff_ne_zero]
  intro h0
  obtain ⟨x, hx, hx0⟩ := Matrix.exists_mulVec_eq_zero_iff.2 h0
  have : matC (pressureMatrix q n) (fun j => (x j : ℂ)) = matC (pressureMatrix q n) 0 := by
    rw [map_zero]
    funext i
    have := congrFun hx0 i
    simp only [Matrix.mulVec, dotProduct, Pi.zero_apply] at this
    simp only [matC, Matrix.toLin'_apply, Matrix.mulVec, dotProduct, Matrix.map_apply, Pi.zero_apply]
    exact_mod_cast this
  have h := pressureMatrix_injective q n this
  refine hx (funext fun j => ?_)
  have := congrFun h j
  simpa using this

/-- **C87 (system).**  `p_hat` is the only solution of the system that the code assembles. -/
theorem C87_solved (q : Quad) (nu dt k2 : ℝ) (u u0 : Fin n → ℂ) (Hx : Fin (n + 2) → ℂ) (p : Fin (n + 4) → ℂ) :
    matC (pressureMatrix q n) p = pressureRHS q n nu dt k2 u u0 Hx ↔ p = pressureHat q n nu dt k2 u u0 Hx := by
  have hs : matC (pressureMatrix q n) (pressureHat q n nu dt k2 u u0 Hx) = pressureRHS q n nu dt k2 u u0 Hx := by
    simp only [pressureHat, matC, Matrix.toLin'_apply, Matrix.mulVec_mulVec]
    have hm : (pressureMatrix q n).map ((↑) : ℝ → ℂ) * (pressureMatrix q n)⁻¹.map (↑) = 1 := by
      have h3 := congrArg (fun A : Matrix (Fin (n + 4)) (Fin (n + 4)) ℝ => A.map Complex.ofRealHom)
        (Matrix.mul_nonsing_inv _ (pressureMatrix_det q n))
      simp only [Matrix.map_mul] at h3
      rw [Matrix.map_one _ (map_zero _) (map_one _)] at h3
      exact h3
    rw [hm, Matrix.one_mulVec]
  exact ⟨fun h => pressureMatrix_injective q n (h.trans hs.symm), fun h => h ▸ hs⟩

/-- The pressure of the code, as a polynomial. -/
noncomputable def pressurePoly (q : Quad) (n : ℕ) (nu dt k2 : ℝ) (u u0 : Fin n → ℂ) (Hx : Fin (n + 2) → ℂ) : ℂ[X] :=
  expandC chebT (pressureHat q n nu dt k2 u u0 Hx)

theorem pressure_rows (q : Quad) (nu dt k2 : ℝ) (u u0 : Fin n → ℂ) (Hx : Fin (n + 2) → ℂ) (i : Fin (n + 4)) :
    (if (i : ℕ) = n + 3 then pressureHat q n nu dt k2 u u0 Hx 0
      else scalarProduct (a := n + 4) q (n + 4) chebT (derivative (pressurePoly q n nu dt k2 u u0 Hx)) i) = pressureRHS q n nu dt k2 u u0 Hx i := by
  rw [pressurePoly, ← pressureMatrix_row, (C87_solved q nu dt k2 u u0 Hx _).2 rfl]

/-- **C87 (momentum), the part that holds.**  The pressure satisfies the momentum equation normal to the walls against all Chebyshev
polynomials but the last for the velocities that the arrays `U_hat[0]`, `U_hat0[0]` have in the Dirichlet basis.  Missing: the arrays hold the
coefficients in the biharmonic basis; with these the equation is false (`C87_momentum_false`). -/
theorem C87_momentum_partial (q : Quad) (nu dt k2 : ℝ) (u u0 : Fin n → ℂ) (Hx : Fin (n + 2) → ℂ) :
    WallNormal q (n + 4) (n + 3) nu dt k2 (expandC phi (asDirichlet u)) (expandC phi (asDirichlet u0)) (expandC phi Hx)
      (pressurePoly q n nu dt k2 u u0 Hx) := by
  intro i
  have h := pressure_rows q nu dt k2 u u0 Hx i.castSucc
  rw [if_neg (by simp; have := i.2; omega), pressureRHS, Pi.add_apply, ← Pi.add_apply, ← map_add] at h
  have e : ∀ r : ℂ[X], scalarProduct (a := n + 3) q (n + 4) chebT r i = scalarProduct (a := n + 4) q (n + 4) chebT r i.castSucc := fun r => by
    rw [scalarProduct_apply, scalarProduct_apply]
    rfl
  refine (e _).trans (h.trans ((congrArg (fun r => scalarProduct (a := n + 4) q (n + 4) chebT r i.castSucc) ?_).trans (e _).symm))
  simp only [map_smul, map_add, map_sub]
  abel

/-- The difference of the two readings of an array. -/
noncomputable def readGap (u : Fin n → ℂ) : ℂ[X] := expandC psi u - expandC phi (asDirichlet u)

theorem expandC_asDirichlet (u : Fin n → ℂ) : expandC phi (asDirichlet u) = expandC phi u := by
  rw [expandC_apply, expandC_apply, Fin.sum_univ_castSucc, Fin.sum_univ_castSucc]
  have h1 : asDirichlet u (Fin.last (n + 1)) = 0 := by simp [asDirichlet]
  have h2 : asDirichlet u (Fin.castSucc (Fin.last n)) = 0 := by simp [asDirichlet]
  rw [h1, h2, zero_smul, zero_smul, add_zero, add_zero]
  refine Finset.sum_congr rfl fun j _ => ?_
  simp [asDirichlet]

theorem gap_basis (j : ℕ) : psi j - phi j = (-(((j : ℝ) + 1) / (j + 3))) • phi (j + 2) := by
  have h3 : (j : ℝ) + 3 ≠ 0 := by positivity
  have e : 2 * ((j : ℝ) + 2) / (j + 3) = 1 + ((j : ℝ) + 1) / (j + 3) := by field_simp; ring
  rw [psi, phi, phi, e]
  push_cast
  rw [show (j : ℤ) + 2 + 2 = j + 4 by ring]
  simp only [smul_sub, neg_smul, add_smul, one_smul]
  abel

theorem readGap_eq (u : Fin n → ℂ) : readGap u = expandC (fun j => psi j - phi j) u := by
  rw [readGap, expandC_asDirichlet, expandC_apply, expandC_apply, expandC_apply, ← Finset.sum_sub_distrib]
  refine Finset.sum_congr rfl fun j _ => ?_
  rw [Polynomial.map_sub, smul_sub]

theorem degree_gap (j : ℕ) : (psi j - phi j).degree = (j + 4 : ℕ) := by
  have hc : -(((j : ℝ) + 1) / (j + 3)) ≠ 0 := neg_ne_zero.2 (by positivity)
  rw [gap_basis, smul_eq_C_mul, degree_C_mul hc, degree_phi]

theorem readGap_eq_zero (u : Fin n → ℂ) (h : readGap u = 0) : u = 0 := by
  rw [readGap_eq] at h
  exact expandC_phi_injective n (fun j => psi j - phi j) 4 degree_gap (h.trans (map_zero _).symm)

theorem readGap_walls (u : Fin n → ℂ) : (readGap u).eval 1 = 0 ∧ (readGap u).eval (-1) = 0 := by
  have h : ∀ j, ((psi j - phi j).map Complex.ofRealHom).eval 1 = 0 ∧ ((psi j - phi j).map Complex.ofRealHom).eval (-1) = 0 := fun j => by
    obtain ⟨a, b, -, -⟩ := psi_walls j
    obtain ⟨c, d⟩ := phi_walls j
    have h1 := eval_ofReal (psi j - phi j) 1
    have h2 := eval_ofReal (psi j - phi j) (-1)
    rw [eval_sub, a, c] at h1
    rw [eval_sub, b, d] at h2
    push_cast at h1 h2
    exact ⟨by rw [h1]; simp, by rw [h2]; simp⟩
  rw [readGap_eq, expandC_apply]
  constructor
  · rw [eval_finsetSum]
    exact Finset.sum_eq_zero fun j _ => by rw [eval_smul, (h j).1, smul_zero]
  · rw [eval_finsetSum]
    exact Finset.sum_eq_zero fun j _ => by rw [eval_smul, (h j).2, smul_zero]

/-- What the momentum equation of the code misses. -/
noncomputable def momentumGap (nu dt k2 : ℝ) (u u0 : Fin n → ℂ) : ℂ[X] :=
  let um := (0.5 : ℂ) • (readGap u + readGap u0)
  (nu : ℂ) • (derivative^[2] um - (k2 : ℂ) • um) - (1 / dt : ℂ) • (readGap u - readGap u0)

theorem momentum_add (nu dt k2 : ℝ) (a a0 g g0 h : ℂ[X]) :
    (nu : ℂ) • (derivative^[2] ((0.5 : ℂ) • (a + g + (a0 + g0))) - (k2 : ℂ) • ((0.5 : ℂ) • (a + g + (a0 + g0)))) + h
      - (1 / dt : ℂ) • (a + g - (a0 + g0)) =
    ((nu : ℂ) • (derivative^[2] ((0.5 : ℂ) • (a + a0)) - (k2 : ℂ) • ((0.5 : ℂ) • (a + a0))) + h - (1 / dt : ℂ) • (a - a0)) +
      ((nu : ℂ) • (derivative^[2] ((0.5 : ℂ) • (g + g0)) - (k2 : ℂ) • ((0.5 : ℂ) • (g + g0))) - (1 / dt : ℂ) • (g - g0)) := by
  simp only [Function.iterate_succ, Function.iterate_zero, Function.comp, id, derivative_smul, derivative_add]
  simp only [smul_eq_C_mul]
  ring

/-- **C87 (defect).**  With the velocities of the biharmonic basis the momentum equation holds if and only if the term that comes from reading
the arrays in the other basis vanishes against the test functions. -/
theorem C87_defect (q : Quad) (nu dt k2 : ℝ) (u u0 : Fin n → ℂ) (Hx : Fin (n + 2) → ℂ) :
    WallNormal q (n + 4) (n + 3) nu dt k2 (expandC psi u) (expandC psi u0) (expandC phi Hx) (pressurePoly q n nu dt k2 u u0 Hx) ↔
      ∀ i : Fin (n + 3), scalarProduct (a := n + 3) q (n + 4) chebT (momentumGap nu dt k2 u u0) i = 0 := by
  have h := C87_momentum_partial q nu dt k2 u u0 Hx
  refine forall_congr' fun i => ?_
  rw [h i]
  have e : ∀ v : Fin n → ℂ, expandC psi v = expandC phi (asDirichlet v) + readGap v := fun v => by rw [readGap]; abel
  rw [e u, e u0]
  rw [momentum_add nu dt k2, map_add, Pi.add_apply, left_eq_add]
  rfl

/-- **C87 (momentum), the witness.**  For a steady wall-normal velocity the momentum equation is not satisfied unless the velocity is zero:
for every wavenumber if the last coefficient is zero, and without this condition at wavenumber zero. -/
theorem C87_momentum_false (q : Quad) (nu dt k2 : ℝ) (hnu : nu ≠ 0) (u : Fin n → ℂ) (hu : u ≠ 0)
    (htop : k2 = 0 ∨ ∀ j : Fin n, (j : ℕ) + 1 = n → u j = 0) (Hx : Fin (n + 2) → ℂ) :
    ¬ WallNormal q (n + 4) (n + 3) nu dt k2 (expandC psi u) (expandC psi u) (expandC phi Hx) (pressurePoly q n nu dt k2 u u Hx) := by
  rw [C87_defect]
  intro h
  have hm : momentumGap nu dt k2 u u = (nu : ℂ) • (derivative^[2] (readGap u) - (k2 : ℂ) • readGap u) := by
    have : (0.5 : ℂ) • (readGap u + readGap u) = readGap u := by
      rw [← two_smul ℂ, smul_smul]; norm_num
    simp only [momentumGap, this, sub_self, smul_zero, sub_zero]
  have hnu' : (nu : ℂ) ≠ 0 := by exact_mod_cast hnu
  have hg : readGap u ≠ 0 := fun h0 => hu (readGap_eq_zero u h0)
  have hdeg : (readGap u).degree < (n + 4 : ℕ) := by
    rw [readGap_eq]; exact expandC_degree _ 4 n degree_gap u
  have hd2 : (derivative^[2] (readGap u)).degree < (n + 2 : ℕ) := derivative_lt _ (derivative_lt _ hdeg)
  have hlow : ((k2 : ℂ) • readGap u).degree < (n + 3 : ℕ) := by
    rcases htop with h0 | h0
    · rw [h0, Complex.ofReal_zero, zero_smul, degree_zero]
      exact WithBot.bot_lt_coe _
    · refine lt_of_le_of_lt (degree_smul_le _ _) ?_
      rw [readGap_eq, expandC_apply]
      refine lt_of_le_of_lt (degree_sum_le _ _) ((Finset.sup_lt_iff (WithBot.bot_lt_coe _)).2 fun j _ => ?_)
      by_cases hj : (j : ℕ) + 1 = n
      · rw [h0 j hj, zero_smul, degree_zero]
        exact WithBot.bot_lt_coe _
      · refine lt_of_le_of_lt (degree_smul_le _ _) (lt_of_le_of_lt degree_map_le ?_)
        rw [degree_gap]
        exact_mod_cast (by have := j.2; omega : (j : ℕ) + 4 < n + 3)
  have hz : derivative^[2] (readGap u) = (k2 : ℂ) • readGap u := by
    have hs := eq_zero_of_tested q (n + 4) (n + 3) (by omega) (by omega) _ (lt_of_le_of_lt (degree_smul_le (nu : ℂ) _)
      (lt_of_le_of_lt (degree_sub_le _ _) (max_lt (hd2.trans (by exact_mod_cast Nat.lt_succ_self _)) hlow))) (hm ▸ h)
    rw [smul_eq_zero] at hs
    exact sub_eq_zero.1 (hs.resolve_left hnu')
  have hk : k2 = 0 := by
    by_contra hk
    have hk' : (k2 : ℂ) ≠ 0 := by exact_mod_cast hk
    have h1 : (derivative^[2] (readGap u)).degree < (readGap u).degree := by
      by_cases hd : derivative (readGap u) = 0
      · rw [Function.iterate_succ_apply, hd]
        simpa using bot_lt_iff_ne_bot.2 (degree_ne_bot.2 hg)
      · exact (degree_derivative_lt hd).trans (degree_derivative_lt hg)
    rw [hz, smul_eq_C_mul, degree_C_mul hk'] at h1
    exact lt_irrefl _ h1
  rw [hk, Complex.ofReal_zero, zero_smul] at hz
  have h1 := eq_C_of_derivative_eq_zero (p := derivative (readGap u)) hz
  have h2 := eq_C_of_derivative_eq_zero (p := readGap u - C ((derivative (readGap u)).coeff 0) * X) (by
    rw [derivative_sub, derivative_mul, derivative_C, derivative_X, zero_mul, zero_add, mul_one, ← h1, sub_self])
  have h3 : readGap u = C ((readGap u - C ((derivative (readGap u)).coeff 0) * X).coeff 0) + C ((derivative (readGap u)).coeff 0) * X := by
    rw [← h2]; abel
  generalize (readGap u - C ((derivative (readGap u)).coeff 0) * X).coeff 0 = c at h3
  generalize (derivative (readGap u)).coeff 0 = d at h3
  obtain ⟨w1, w2⟩ := readGap_walls u
  rw [h3] at w1 w2
  simp only [eval_add, eval_mul, eval_C, eval_X] at w1 w2
  have hc : c = 0 := by linear_combination (w1 + w2) / 2
  have hd : d = 0 := by linear_combination (w1 - w2) / 2
  exact hg (by rw [h3, hc, hd]; simp)

theorem tested_last_phi (q : Quad) (w : Fin (n + 2) → ℂ) : scalarProduct (a := n + 4) q (n + 4) chebT (expandC phi w) (Fin.last _) =
    -(lastNorm q : ℂ) * w (Fin.last _) := by
  have h := congrFun (entry_test (a := n + 4) q (n + 4) (n + 2) 0 chebT phi w) (Fin.last _)
  rw [Function.iterate_zero, id] at h
  rw [← h]
  simp only [matC, Matrix.toLin'_apply, Matrix.mulVec, dotProduct, Matrix.map_apply]
  have hq : ∀ j : Fin (n + 2), entry q (n + 4) chebT phi 0 (n + 4) (n + 2) (Fin.last _) j =
      if j = Fin.last _ then -lastNorm q else 0 := fun j => by
    have hj := j.2
    have hl : ((Fin.last (n + 3) : Fin (n + 4)) : ℕ) = n + 3 := rfl
    rw [entry, Function.iterate_zero, id, phi, chebT, sub_mul, map_sub, hl, quad_TT q (n + 2) _ _ (by omega) (by omega),
      quad_TT q (n + 2) _ _ (by omega) (by omega), if_neg (by omega), zero_sub]
    by_cases hjn : j = Fin.last _
    · subst hjn
      rw [if_pos rfl, if_pos (by simp)]
      cases q <;> simp [ck, lastNorm]
    · rw [if_neg hjn, if_neg, neg_zero]
      intro h
      exact hjn (Fin.ext (by simp; omega))
  simp only [hq]
  rw [Finset.sum_eq_single (Fin.last _)]
  · simp
  · intro j _ hj
    rw [if_neg hj]; simp
  · simp

/-- **C87 (constant).**  The constant of the pressure is the last coefficient of the convection, up to sign and the norm of the last
Chebyshev polynomial: at every wavenumber it is independent of the velocity. -/
theorem C87_constant (q : Quad) (nu dt k2 : ℝ) (u u0 : Fin n → ℂ) (Hx : Fin (n + 2) → ℂ) :
    pressureHat q n nu dt k2 u u0 Hx 0 = -(lastNorm q : ℂ) * Hx (Fin.last _) := by
  have h := pressure_rows q nu dt k2 u u0 Hx (Fin.last _)
  rw [if_pos (by simp)] at h
  have hlast : ∀ v : Fin n → ℂ, asDirichlet v (Fin.last _) = 0 := fun v => by simp [asDirichlet]
  have hdeg : ∀ v : Fin n → ℂ, (expandC phi (asDirichlet v)).degree < (n + 3 : ℕ) := fun v => by
    rw [expandC_asDirichlet]
    exact (expandC_degree phi 2 n degree_phi v).trans (by exact_mod_cast Nat.lt_succ_self _)
  have hum : (expandC phi ((0.5 : ℂ) • (asDirichlet u + asDirichlet u0))).degree < (n + 3 : ℕ) := by
    rw [map_smul, map_add]
    exact lt_of_le_of_lt (degree_smul_le _ _) (lt_of_le_of_lt (degree_add_le _ _) (max_lt (hdeg u) (hdeg u0)))
  rw [h, pressureRHS]
  rw [Pi.add_apply, tested_last_phi, tested_last, zero_add]
  · simp [hlast]
  · refine lt_of_le_of_lt (degree_smul_le _ _) (lt_of_le_of_lt (degree_sub_le _ _) (max_lt ?_ (lt_of_le_of_lt (degree_smul_le _ _) hum)))
    exact (derivative_lt (m := n + 1) _ (derivative_lt (m := n + 2) _ hum)).trans (by exact_mod_cast (by omega : n + 1 < n + 3))

/-- A case: the momentum equation is false for the steady flow with the first biharmonic function as velocity, on 6 points. -/
example : ¬ WallNormal .GC 6 5 1 1 3 (expandC psi ![1, 0]) (expandC psi ![1, 0]) 0 (pressurePoly .GC 2 1 1 3 ![1, 0] ![1, 0] 0) := by
  have h := C87_momentum_false (n := 2) .GC 1 1 3 one_ne_zero ![1, 0] (fun h => by simpa using congrFun h 0)
    (Or.inr fun j hj => by fin_cases j <;> simp_all) 0
  rwa [map_zero] at h

/-- A case: with Gauss-Lobatto points the constant of the pressure is `-π` for a convection with last coefficient one, whatever the velocities. -/
example (u u0 : Fin 2 → ℂ) : pressureHat .GL 2 1 1 3 u u0 ![0, 0, 0, 1] 0 = -(Real.pi : ℂ) := by
  rw [C87_constant]; simp [lastNorm, show (Fin.last (2 + 1) : Fin 4) = 3 from rfl]

end SpectralDNS.Channel

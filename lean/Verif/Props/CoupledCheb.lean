import Verif.Lemmas.CoupledCheb
import Verif.Props.Coupled
import Verif.Props.ChannelRK3
import Verif.Props.GalerkinField

/-!
# C97: the block systems of the coupled channel solvers have unique solutions;  C98: the coupled solvers and KMM compute the same flow
-/

namespace SpectralDNS.Coupled

open Polynomial Periodic Spec.Channel Spec.Field
open SpectralDNS.Channel (Grid Vec maskVec maskAt Quad phi psi chebT expandC scalarProduct entry matC entry_test waveGrid waveGrid_zero MeanOnly)

variable {n : ℕ}

/-! ## C97 -/

/-- The only solution of the homogeneous block system at a wavenumber pair other than zero. -/
theorem homogeneous (q : Quad) (a k1 k2 : ℝ) (ha : 0 ≤ a) (hk : k1 * k1 + k2 * k2 ≠ 0) (b : ℂ) (hb : b ≠ 0) (u v w : Fin (n + 2) → ℂ)
    (p : Fin (n + 4) → ℂ) (h0 : (a : ℂ) • (chebMats q n).BDD u - (chebMats q n).ADD u + b • (chebMats q n).CDP p = 0)
    (h1 : (a : ℂ) • (chebMats q n).BDD v - (chebMats q n).ADD v + b • (Complex.I * k1) • (chebMats q n).BDP p = 0)
    (h2 : (a : ℂ) • (chebMats q n).BDD w - (chebMats q n).ADD w + b • (Complex.I * k2) • (chebMats q n).BDP p = 0)
    (hc : (chebMats q n).CPD u + (Complex.I * k1) • (chebMats q n).BPD v + (Complex.I * k2) • (chebMats q n).BPD w = 0) :
    u = 0 ∧ v = 0 ∧ w = 0 ∧ p = 0 := by
  have hdiv := (continuity_iff q k1 k2 u v w).1 hc
  obtain ⟨x, hx⟩ := exists_biharmonic _ _ _ _ _ hdiv
  have hkC : (k1 * k1 + k2 * k2 : ℂ) ≠ 0 := by exact_mod_cast hk
  set E : ℂ[X] → ℂ[X] := fun f => (a : ℂ) • f - derivative^[2] f with hE
  have hEdeg : ∀ f : Fin (n + 2) → ℂ, (E (expandC phi f)).degree < (n + 4 : ℕ) := fun f =>
    lt_of_le_of_lt (degree_sub_le _ _) (max_lt (lt_of_le_of_lt (degree_smul_le _ _) (phi_degree f))
      (lt_of_le_of_lt (le_trans degree_derivative_le degree_derivative_le) (phi_degree f)))
  have hp : (expandC chebT p).degree < (n + 4 : ℕ) := Channel.expandC_degree chebT 0 (n + 4) Channel.degree_chebT p
  have hdE : derivative (E (expandC phi u)) + ((Complex.I * k1) • E (expandC phi v) + (Complex.I * k2) • E (expandC phi w)) = 0 := by
    have h3 := congrArg E hdiv
    simp only [hE, Function.iterate_succ, Function.iterate_zero, Function.comp, id, map_add, derivative_smul, map_zero, smul_zero, sub_zero] at h3 ⊢
    rw [← h3, map_sub, derivative_smul]
    module
  have he := eliminate q (k1 : ℂ) k2 b (E (expandC phi u)) (E (expandC phi v)) (E (expandC phi w)) 0 0 0 (expandC chebT p) (hEdeg v) (hEdeg w)
    (by rw [degree_zero]; exact WithBot.bot_lt_coe _) (by rw [degree_zero]; exact WithBot.bot_lt_coe _) hp hdE
    (by rw [sub_zero, map_add, map_smul, ← cdp_apply, ← h0, hE, map_sub, map_smul, ← bdd_apply, ← add_apply])
    (by rw [sub_zero, map_add, map_smul, map_smul, ← bdp_apply, ← h1, hE, map_sub, map_smul, ← bdd_apply, ← add_apply])
    (by rw [sub_zero, map_add, map_smul, map_smul, ← bdp_apply, ← h2, hE, map_sub, map_smul, ← bdd_apply, ← add_apply])
  have hu : u = 0 := by
    have hx0 : x = 0 := by
      apply (Channel.biharmonic_bijective q (n + 4) n le_rfl (-1) (k1 * k1 + k2 * k2 + a) (-((k1 * k1 + k2 * k2) * a)) (by norm_num)
        (by nlinarith [mul_self_nonneg k1, mul_self_nonneg k2]) (by nlinarith [mul_self_nonneg k1, mul_self_nonneg k2])).1
      beta_reduce
      simp only [map_zero, smul_zero, add_zero]
      have h4 := congrArg Neg.neg he
      rw [neg_zero] at h4
      rw [← h4, entry_test, entry_test, entry_test, ← map_smul, ← map_smul, ← map_smul, ← map_add, ← map_add, ← map_neg, hx]
      congr 1
      simp only [hE, Function.iterate_succ, Function.iterate_zero, Function.comp, id, map_sub, derivative_smul, smul_zero, add_zero, map_zero, sub_zero]
      push_cast
      module
    apply phi_injective
    rw [← hx, hx0, map_zero, map_zero]
  have hg : (Complex.I * k1) • w - (Complex.I * k2) • v = 0 := by
    apply helmholtz_zero q a ha
    have := congrArg₂ (fun x y => (Complex.I * k1) • y - (Complex.I * k2) • x) h1 h2
    simp only [smul_zero, sub_zero] at this
    rw [← this]
    simp only [map_sub, map_smul]
    module
  have hd : (Complex.I * k1) • v + (Complex.I * k2) • w = 0 := by
    apply phi_injective
    rw [hu, map_zero, map_zero, zero_add, ← map_smul, ← map_smul, ← map_add] at hdiv
    rw [hdiv, map_zero]
  have hIk : Complex.I * (k1 * k1 + k2 * k2 : ℂ) ≠ 0 := mul_ne_zero Complex.I_ne_zero hkC
  have hv : v = 0 := by
    have := congrArg₂ (fun x y => (k1 : ℂ) • x - (k2 : ℂ) • y) hd hg
    simp only [smul_zero, sub_zero] at this
    refine (smul_eq_zero.1 (?_ : (Complex.I * (k1 * k1 + k2 * k2 : ℂ)) • v = 0)).resolve_left hIk
    rw [← this]
    module
  have hw : w = 0 := by
    have := congrArg₂ (fun x y => (k2 : ℂ) • x + (k1 : ℂ) • y) hd hg
    simp only [smul_zero, add_zero] at this
    refine (smul_eq_zero.1 (?_ : (Complex.I * (k1 * k1 + k2 * k2 : ℂ)) • w = 0)).resolve_left hIk
    rw [← this]
    module
  refine ⟨hu, hv, hw, pressure_zero q p ?_ ?_⟩
  · rw [hu] at h0
    simpa [hb] using h0
  · by_contra hne
    rw [hv] at h1
    rw [hw] at h2
    have e1 : k1 = 0 := by simpa [hb, hne] using h1
    have e2 : k2 = 0 := by simpa [hb, hne] using h2
    exact hk (by rw [e1, e2]; ring)

/-- The same at the mean, with the two constraints. -/
theorem homogeneous_mean (q : Quad) (a : ℝ) (ha : 0 ≤ a) (b : ℂ) (hb : b ≠ 0) (u v w : Fin (n + 2) → ℂ)
    (p : Fin (n + 4) → ℂ) (h0 : (a : ℂ) • (chebMats q n).BDD u - (chebMats q n).ADD u + b • (chebMats q n).CDP p = 0)
    (h1 : (a : ℂ) • (chebMats q n).BDD v - (chebMats q n).ADD v = 0) (h2 : (a : ℂ) • (chebMats q n).BDD w - (chebMats q n).ADD w = 0)
    (hc : rest n ((chebMats q n).CPD u) = 0) (hp0 : p 0 = 0) (hp1 : p (Fin.last _) = 0) : u = 0 ∧ v = 0 ∧ w = 0 ∧ p = 0 := by
  have hu := rest_injective q u hc
  refine ⟨hu, helmholtz_zero q a ha v h1, helmholtz_zero q a ha w h2, ?_⟩
  rw [hu] at h0
  have hC : (chebMats q n).CDP p = 0 := by simpa [hb] using h0
  funext j
  by_cases e0 : j = 0
  · rw [e0, hp0]; rfl
  · by_cases e1 : j = Fin.last _
    · rw [e1, hp1]; rfl
    · exact cdp_zero q p hC j e0 e1

/-- The block system of one wavenumber pair as a linear map of the unknowns. -/
noncomputable def block (q : Quad) (n : ℕ) (a b k1 k2 : ℂ) (mean : Bool) :
    ((Fin (n + 2) → ℂ) × (Fin (n + 2) → ℂ) × (Fin (n + 2) → ℂ) × (Fin (n + 4) → ℂ)) →ₗ[ℂ]
      ((Fin (n + 2) → ℂ) × (Fin (n + 2) → ℂ) × (Fin (n + 2) → ℂ) × (Fin (n + 4) → ℂ)) where
  toFun x := (a • (chebMats q n).BDD x.1 - (chebMats q n).ADD x.1 + b • (chebMats q n).CDP x.2.2.2,
    a • (chebMats q n).BDD x.2.1 - (chebMats q n).ADD x.2.1 + b • (Complex.I * k1) • (chebMats q n).BDP x.2.2.2,
    a • (chebMats q n).BDD x.2.2.1 - (chebMats q n).ADD x.2.2.1 + b • (Complex.I * k2) • (chebMats q n).BDP x.2.2.2,
    fun i => if mean = true ∧ i = 0 then x.2.2.2 0 else if mean = true ∧ i = Fin.last _ then x.2.2.2 (Fin.last _) else
      (b • ((chebMats q n).CPD x.1 + (Complex.I * k1) • (chebMats q n).BPD x.2.1 + (Complex.I * k2) • (chebMats q n).BPD x.2.2.1)) i)
  map_add' x y := by
    simp only [Prod.fst_add, Prod.snd_add, map_add, Prod.mk_add_mk]
    refine Prod.ext (by dsimp only; module) (Prod.ext (by dsimp only; module) (Prod.ext (by dsimp only; module) ?_))
    funext i
    simp only [Pi.add_apply, Pi.smul_apply, smul_eq_mul]
    split_ifs
    · rfl
    · rfl
    · ring
  map_smul' c x := by
    simp only [Prod.smul_fst, Prod.smul_snd, map_smul, Prod.smul_mk, RingHom.id_apply]
    refine Prod.ext (by dsimp only; module) (Prod.ext (by dsimp only; module) (Prod.ext (by dsimp only; module) ?_))
    funext i
    simp only [Pi.add_apply, Pi.smul_apply, smul_eq_mul]
    split_ifs
    · rfl
    · rfl
    · ring

theorem block_bijective (q : Quad) (n : ℕ) (a b k1 k2 : ℝ) (ha : 0 ≤ a) (hb : b ≠ 0) (mean : Bool)
    (hm : mean = true ↔ k1 * k1 + k2 * k2 = 0) : Function.Bijective (block q n a b k1 k2 mean) := by
  have hi : Function.Injective (block q n a b k1 k2 mean) := by
    rw [← LinearMap.ker_eq_bot, LinearMap.ker_eq_bot']
    rintro ⟨u, v, w, p⟩ h
    have hbC : (b : ℂ) ≠ 0 := by exact_mod_cast hb
    obtain ⟨h0, h1, h2, h3⟩ : _ ∧ _ ∧ _ ∧ _ := by simpa only [Prod.mk_eq_zero] using (show (_, _, _, _) = _ from h)
    cases mean with
    | false =>
      have hk : k1 * k1 + k2 * k2 ≠ 0 := fun e => by simpa using hm.2 e
      have hc : (b : ℂ) • ((chebMats q n).CPD u + (Complex.I * k1) • (chebMats q n).BPD v + (Complex.I * k2) • (chebMats q n).BPD w) = 0 := by
        funext i
        have := congrFun h3 i
        simpa using this
      obtain ⟨r0, r1, r2, r3⟩ := homogeneous q a k1 k2 ha hk b hbC u v w p h0 h1 h2 ((smul_eq_zero.1 hc).resolve_left hbC)
      rw [r0, r1, r2, r3]; rfl
    | true =>
      have hk := hm.1 rfl
      have e1 : k1 = 0 := by nlinarith [mul_self_nonneg k1, mul_self_nonneg k2]
      have e2 : k2 = 0 := by nlinarith [mul_self_nonneg k1, mul_self_nonneg k2]
      subst e1 e2
      have hl : (Fin.last (n + 3)) ≠ 0 := Fin.last_pos.ne'
      obtain ⟨r0, r1, r2, r3⟩ := homogeneous_mean q a ha b hbC u v w p h0 (by simpa using h1) (by simpa using h2)
        (by
          funext i
          have := congrFun h3 i.succ.castSucc
          have n0 : i.succ.castSucc ≠ (0 : Fin (n + 4)) := fun e => by have := congrArg Fin.val e; simp at this
          have n1 : i.succ.castSucc ≠ Fin.last (n + 3) := fun e => by have h5 := congrArg Fin.val e; have h6 := i.2; simp at h5; omega
          rw [if_neg (fun e => n0 e.2), if_neg (fun e => n1 e.2)] at this
          simp only [Complex.ofReal_zero, mul_zero, zero_smul, add_zero] at this
          exact (smul_eq_zero.1 this).resolve_left hbC)
        (by simpa using congrFun h3 0)
        (by
          have := congrFun h3 (Fin.last _)
          rw [if_neg (fun e => hl e.2), if_pos ⟨rfl, rfl⟩] at this
          exact this)
      rw [r0, r1, r2, r3]; rfl
  exact ⟨hi, LinearMap.injective_iff_surjective.1 hi⟩

variable {κ : Type*} [DecidableEq κ]

/-- C97: at every resolution, with both quadratures, the block systems of the coupled solvers, constraints included, have exactly one
solution for every right-hand side. -/
theorem C97_unique (q : Quad) (c : Ctx κ (Fin (n + 2) → ℂ) (Fin (n + 4) → ℂ) (Fin (n + 4) → ℂ)) (hM : c.M = chebMats q n)
    (hz : ∀ k, c.G.Ksq k = 0 ↔ k = c.G.zero) (alfa beta : ℝ) (ha : 0 ≤ alfa) (hb : beta ≠ 0) :
    ∃! solve, Solves c alfa beta (rest n) (pinFirst n) (pinLast n) solve := by
  have hK : ∀ k, 0 ≤ c.G.Ksq k := fun k => add_nonneg (mul_self_nonneg _) (mul_self_nonneg _)
  have hbij : ∀ k, Function.Bijective (block q n ((alfa + c.G.Ksq k : ℝ) : ℂ) beta (c.G.K1 k) (c.G.K2 k) (decide (k = c.G.zero))) := fun k =>
    block_bijective q n (alfa + c.G.Ksq k) beta (c.G.K1 k) (c.G.K2 k) (add_nonneg ha (hK k)) hb _ (by rw [decide_eq_true_iff, ← hz]; rfl)
  have hl : (Fin.last (n + 3)) ≠ 0 := Fin.last_pos.ne'
  have h0 : c.G.K1 c.G.zero = 0 ∧ c.G.K2 c.G.zero = 0 := by
    have h0 : c.G.K1 c.G.zero * c.G.K1 c.G.zero + c.G.K2 c.G.zero * c.G.K2 c.G.zero = 0 := (hz c.G.zero).2 rfl
    exact ⟨by nlinarith [mul_self_nonneg (c.G.K1 c.G.zero), mul_self_nonneg (c.G.K2 c.G.zero)],
      by nlinarith [mul_self_nonneg (c.G.K1 c.G.zero), mul_self_nonneg (c.G.K2 c.G.zero)]⟩
  -- the system says that the unknowns of every pair are mapped to the right-hand side
  have key : ∀ solve : Vec κ (Fin (n + 2) → ℂ) → Vel κ (Fin (n + 2) → ℂ) × (κ → Fin (n + 4) → ℂ),
      Solves c alfa beta (rest n) (pinFirst n) (pinLast n) solve ↔ ∀ rhs k,
        block q n ((alfa + c.G.Ksq k : ℝ) : ℂ) beta (c.G.K1 k) (c.G.K2 k) (decide (k = c.G.zero))
          ((solve rhs).1.c0 k, (solve rhs).1.c1 k, (solve rhs).1.c2 k, (solve rhs).2 k) = (rhs.c0 k, rhs.c1 k, rhs.c2 k, 0) := by
    intro solve
    have row : ∀ (k : κ) (x : Fin (n + 2) → ℂ), ((alfa + c.G.Ksq k : ℝ) : ℂ) • (chebMats q n).BDD x - (chebMats q n).ADD x =
        (alfa : ℂ) • (chebMats q n).BDD x - ((chebMats q n).ADD x - (c.G.Ksq k : ℂ) • (chebMats q n).BDD x) := fun k x => by
      push_cast; module
    constructor
    · intro hs rhs k
      have m0 := hs.mom0 rhs k
      have m1 := hs.mom1 rhs k
      have m2 := hs.mom2 rhs k
      rw [hM, ← row] at m0 m1 m2
      refine Prod.ext m0 (Prod.ext m1 (Prod.ext m2 ?_))
      funext i
      show (if _ then _ else if _ then _ else _) = (0 : ℂ)
      by_cases hk : k = c.G.zero
      · subst hk
        simp only [decide_true, true_and]
        split_ifs with e0 e1
        · exact hs.pin0 rhs
        · exact hs.pin1 rhs
        · have := hs.cont0 rhs
          rw [hM] at this
          have hlt := i.2
          have i0 : (i : ℕ) ≠ 0 := fun e => e0 (Fin.ext e)
          have i1 : (i : ℕ) ≠ n + 3 := fun e => e1 (Fin.ext e)
          have := congrFun this ⟨i - 1, by omega⟩
          have hi : (Fin.succ ⟨i - 1, by omega⟩ : Fin (n + 3)).castSucc = i := Fin.ext (by simp; omega)
          rw [h0.1, h0.2]
          simp only [Complex.ofReal_zero, mul_zero, zero_smul, add_zero]
          rw [← hi]
          exact this
      · simp only [hk, decide_false, Bool.false_eq_true, false_and, if_false]
        have := hs.cont rhs k hk
        rw [hM] at this
        exact congrFun this i
    · intro h
      have m0 := fun rhs k => congrArg (fun x => x.1) (h rhs k)
      have m1 := fun rhs k => congrArg (fun x => x.2.1) (h rhs k)
      have m2 := fun rhs k => congrArg (fun x => x.2.2.1) (h rhs k)
      have m3 := fun rhs k i => congrFun (congrArg (fun x => x.2.2.2) (h rhs k)) i
      constructor
      · intro rhs k; rw [hM, ← row]; exact m0 rhs k
      · intro rhs k; rw [hM, ← row]; exact m1 rhs k
      · intro rhs k; rw [hM, ← row]; exact m2 rhs k
      · intro rhs k hk
        rw [hM]
        funext i
        have e : (if _ then _ else if _ then _ else _) = (0 : ℂ) := m3 rhs k i
        simp only [hk, decide_false, Bool.false_eq_true, false_and, if_false] at e
        exact e
      · intro rhs
        rw [hM]
        funext i
        have e : (if _ then _ else if _ then _ else _) = (0 : ℂ) := m3 rhs c.G.zero i.succ.castSucc
        have n0 : i.succ.castSucc ≠ (0 : Fin (n + 4)) := fun e => by have := congrArg Fin.val e; simp at this
        have n1 : i.succ.castSucc ≠ Fin.last (n + 3) := fun e => by have h5 := congrArg Fin.val e; have h6 := i.2; simp at h5; omega
        rw [if_neg (fun e => n0 e.2), if_neg (fun e => n1 e.2), h0.1, h0.2] at e
        simp only [Complex.ofReal_zero, mul_zero, zero_smul, add_zero] at e
        exact e
      · intro rhs
        have e : (if _ then _ else if _ then _ else _) = (0 : ℂ) := m3 rhs c.G.zero 0
        rw [if_pos ⟨by simp, rfl⟩] at e
        exact e
      · intro rhs
        have e : (if _ then _ else if _ then _ else _) = (0 : ℂ) := m3 rhs c.G.zero (Fin.last _)
        rw [if_neg (fun e => hl e.2), if_pos ⟨by simp, rfl⟩] at e
        exact e
  let S : Vec κ (Fin (n + 2) → ℂ) → κ → _ := fun rhs k => Function.surjInv (hbij k).2 (rhs.c0 k, rhs.c1 k, rhs.c2 k, 0)
  have hS : ∀ rhs k, block q n ((alfa + c.G.Ksq k : ℝ) : ℂ) beta (c.G.K1 k) (c.G.K2 k) (decide (k = c.G.zero)) (S rhs k) =
      (rhs.c0 k, rhs.c1 k, rhs.c2 k, 0) := fun rhs k => Function.surjInv_eq (hbij k).2 _
  refine ⟨fun rhs => (⟨fun k => (S rhs k).1, fun k => (S rhs k).2.1, fun k => (S rhs k).2.2.1⟩, fun k => (S rhs k).2.2.2), (key _).2 hS, ?_⟩
  intro solve' hs'
  have h' := (key solve').1 hs'
  funext rhs
  have e := fun k => (hbij k).1 ((h' rhs k).trans (hS rhs k).symm)
  refine Prod.ext (Channel.Vec.ext ?_ ?_ ?_) ?_
  · funext k; exact congrArg (fun x => x.1) (e k)
  · funext k; exact congrArg (fun x => x.2.1) (e k)
  · funext k; exact congrArg (fun x => x.2.2.1) (e k)
  · funext k; exact congrArg (fun x => x.2.2.2) (e k)

/-- C97 for Coupled: with positive viscosity and time step, on the wavenumbers of the code, the solve of `integrate` (Coupled.py:333) exists and is
unique. -/
theorem C97_coupled {N : Fin 2 → ℕ} {L : Fin 2 → ℝ} (q : Quad) (hN : ∀ i, 0 < N i) (hL : ∀ i, L i ≠ 0)
    (c : Ctx (RModes N) (Fin (n + 2) → ℂ) (Fin (n + 4) → ℂ) (Fin (n + 4) → ℂ)) (hM : c.M = chebMats q n) (hG : c.G = waveGrid N L hN)
    (hnu : 0 < c.nu) (hdt : 0 < c.dt) : ∃! solve, Solves c (2 / c.nu / c.dt) (2 / c.nu) (rest n) (pinFirst n) (pinLast n) solve :=
  C97_unique q c hM (fun k => by rw [hG]; exact waveGrid_zero N L hN hL k) _ _ (by positivity) (by positivity)

/-- C97 for the three systems of CoupledRK3 (CoupledRK3.py:104-116). -/
theorem C97_coupledrk3 {N : Fin 2 → ℕ} {L : Fin 2 → ℝ} (q : Quad) (hN : ∀ i, 0 < N i) (hL : ∀ i, L i ≠ 0)
    (c : Ctx (RModes N) (Fin (n + 2) → ℂ) (Fin (n + 4) → ℂ) (Fin (n + 4) → ℂ)) (hM : c.M = chebMats q n) (hG : c.G = waveGrid N L hN)
    (hnu : 0 < c.nu) (hdt : 0 < c.dt) :
    ∃! solve : Fin 3 → _, ∀ rk, Solves c (2 / c.nu / c.dt / rkG rk) (2 / c.nu / rkG rk) (rest n) (pinFirst n) (pinLast n) (solve rk) := by
  have hg : ∀ rk, 0 < rkG rk := fun rk => by fin_cases rk <;> norm_num [rkG]
  have h := fun rk => C97_unique q c hM (fun k => by rw [hG]; exact waveGrid_zero N L hN hL k) (2 / c.nu / c.dt / rkG rk) (2 / c.nu / rkG rk)
    (by have := hg rk; positivity) (by have := hg rk; positivity)
  choose S hS hu using h
  exact ⟨S, hS, fun S' h' => funext fun rk => hu rk _ (h' rk)⟩

/-! ## C98 -/

/-- Two velocities are the same functions. -/
def Same (U : Vel κ (Fin (n + 2) → ℂ)) (V : Channel.Vel κ (Fin n → ℂ) (Fin (n + 2) → ℂ)) : Prop :=
  ∀ k, expandC phi (U.c0 k) = expandC psi (V.u k) ∧ U.c1 k = V.v k ∧ U.c2 k = V.w k

omit [DecidableEq κ] in
theorem vw_unique {D : Type*} [AddCommGroup D] [Module ℂ D] (k1 k2 : ℝ) (hk : k1 * k1 + k2 * k2 ≠ 0) (v w v' w' : D)
    (hd : (Complex.I * k1) • v + (Complex.I * k2) • w = (Complex.I * k1) • v' + (Complex.I * k2) • w')
    (hc : curl k1 k2 v w = curl k1 k2 v' w') : v = v' ∧ w = w' := by
  have hkC : Complex.I * (k1 * k1 + k2 * k2 : ℂ) ≠ 0 := mul_ne_zero Complex.I_ne_zero (by exact_mod_cast hk)
  rw [← sub_eq_zero] at hd hc
  constructor
  · rw [← sub_eq_zero]
    have := congrArg₂ (fun x y => (k1 : ℂ) • x - (k2 : ℂ) • y) hd hc
    simp only [smul_zero, sub_zero, curl] at this
    refine (smul_eq_zero.1 (?_ : (Complex.I * (k1 * k1 + k2 * k2 : ℂ)) • (v - v') = 0)).resolve_left hkC
    rw [← this]
    module
  · rw [← sub_eq_zero]
    have := congrArg₂ (fun x y => (k2 : ℂ) • x + (k1 : ℂ) • y) hd hc
    simp only [smul_zero, add_zero, curl] at this
    refine (smul_eq_zero.1 (?_ : (Complex.I * (k1 * k1 + k2 * k2 : ℂ)) • (w - w') = 0)).resolve_left hkC
    rw [← this]
    module

/-- Elimination of the pressure from a step: the wall-normal velocity of the coupled solvers obeys the equation of KMM. -/
theorem wallNormal_step (q : Quad) (nu δ k1 k2 : ℝ) (h0 h1 h2 u v w u' v' w' : Fin (n + 2) → ℂ) (p : Fin (n + 4) → ℂ) (x x' : Fin n → ℂ)
    (hx : expandC psi x = expandC phi u) (hx' : expandC psi x' = expandC phi u')
    (hd : derivative (expandC phi u) + ((Complex.I * k1) • expandC phi v + (Complex.I * k2) • expandC phi w) = 0)
    (hd' : derivative (expandC phi u') + ((Complex.I * k1) • expandC phi v' + (Complex.I * k2) • expandC phi w') = 0)
    (m0 : CrankNicolson (chebMats q n).BDD (lap (chebMats q n).BDD (chebMats q n).ADD (k1 * k1 + k2 * k2)) nu δ
      ((chebMats q n).BDD h0 - (chebMats q n).CDP p) u u')
    (m1 : CrankNicolson (chebMats q n).BDD (lap (chebMats q n).BDD (chebMats q n).ADD (k1 * k1 + k2 * k2)) nu δ
      ((chebMats q n).BDD h1 - (Complex.I * k1) • (chebMats q n).BDP p) v v')
    (m2 : CrankNicolson (chebMats q n).BDD (lap (chebMats q n).BDD (chebMats q n).ADD (k1 * k1 + k2 * k2)) nu δ
      ((chebMats q n).BDD h2 - (Complex.I * k2) • (chebMats q n).BDP p) w w') :
    CrankNicolson (lap (Channel.chebMats q n).BBB (Channel.chebMats q n).ABB (k1 * k1 + k2 * k2))
      (bilap (Channel.chebMats q n).BBB (Channel.chebMats q n).ABB (Channel.chebMats q n).SBB (k1 * k1 + k2 * k2)) nu δ
      (forceU (Channel.chebMats q n).BBD (Channel.chebMats q n).CBD (k1 * k1 + k2 * k2) k1 k2 h0 h1 h2) x x' := by
  set e : ℂ := ((nu * δ / 2 : ℝ) : ℂ) with he
  set K : ℂ := (k1 * k1 + k2 * k2 : ℂ) with hK
  have hKr : ((k1 * k1 + k2 * k2 : ℝ) : ℂ) = K := by push_cast; rfl
  set E : ℂ[X] → ℂ[X] → ℂ[X] := fun f f' => f' - f - e • (derivative^[2] f' - K • f') - e • (derivative^[2] f - K • f) with hE
  have hsm : ∀ (c : ℂ) (f : ℂ[X]), f.degree < (n + 4 : ℕ) → (c • f).degree < (n + 4 : ℕ) := fun c f hf =>
    lt_of_le_of_lt (degree_smul_le _ _) hf
  have hsub : ∀ f g : ℂ[X], f.degree < (n + 4 : ℕ) → g.degree < (n + 4 : ℕ) → (f - g).degree < (n + 4 : ℕ) := fun f g hf hg =>
    lt_of_le_of_lt (degree_sub_le _ _) (max_lt hf hg)
  have h2d : ∀ f : ℂ[X], f.degree < (n + 4 : ℕ) → (derivative^[2] f).degree < (n + 4 : ℕ) := fun f hf =>
    lt_of_le_of_lt (le_trans degree_derivative_le degree_derivative_le) hf
  have hEdeg : ∀ f f' : Fin (n + 2) → ℂ, (E (expandC phi f) (expandC phi f')).degree < (n + 4 : ℕ) := fun f f' =>
    hsub _ _ (hsub _ _ (hsub _ _ (phi_degree f') (phi_degree f)) (hsm _ _ (hsub _ _ (h2d _ (phi_degree f')) (hsm _ _ (phi_degree f')))))
      (hsm _ _ (hsub _ _ (h2d _ (phi_degree f)) (hsm _ _ (phi_degree f))))
  have hp : (expandC chebT p).degree < (n + 4 : ℕ) := Channel.expandC_degree chebT 0 (n + 4) Channel.degree_chebT p
  have hdE : derivative (E (expandC phi u) (expandC phi u')) + ((Complex.I * k1) • E (expandC phi v) (expandC phi v')
      + (Complex.I * k2) • E (expandC phi w) (expandC phi w')) = 0 := by
    have h3 := congrArg₂ E hd hd'
    simp only [hE, Function.iterate_succ, Function.iterate_zero, Function.comp, id, map_add, map_sub, derivative_smul, map_zero, smul_zero, sub_zero] at h3 ⊢
    rw [← h3]
    module
  have row : ∀ (h f f' : Fin (n + 2) → ℂ) (P : ℂ[X]) (r : Fin (n + 2) → ℂ), scalarProduct q (n + 4) phi P = r →
      CrankNicolson (chebMats q n).BDD (lap (chebMats q n).BDD (chebMats q n).ADD (k1 * k1 + k2 * k2)) nu δ ((chebMats q n).BDD h - r) f f' →
      scalarProduct (a := n + 2) q (n + 4) phi (E (expandC phi f) (expandC phi f') + (δ : ℂ) • P - (δ : ℂ) • expandC phi h) = 0 := by
    intro h f f' P r hr m
    rw [CrankNicolson, ← sub_eq_zero] at m
    rw [← m]
    simp only [lap, LinearMap.sub_apply, LinearMap.smul_apply, bdd_apply, add_apply, hKr, hE, map_sub, map_add, map_smul, hr, ← he]
    module
  have hel := eliminate q (k1 : ℂ) k2 δ (E (expandC phi u) (expandC phi u')) (E (expandC phi v) (expandC phi v')) (E (expandC phi w) (expandC phi w'))
    ((δ : ℂ) • expandC phi h0) ((δ : ℂ) • expandC phi h1) ((δ : ℂ) • expandC phi h2) (expandC chebT p) (hEdeg v v') (hEdeg w w')
    (hsm _ _ (phi_degree h1)) (hsm _ _ (phi_degree h2)) hp hdE
    (row h0 u u' _ _ (cdp_apply q p).symm m0)
    (row h1 v v' _ _ (by rw [map_smul, ← bdp_apply]) m1) (row h2 w w' _ _ (by rw [map_smul, ← bdp_apply]) m2)
  rw [CrankNicolson, ← sub_eq_zero, ← neg_eq_zero, ← hel]
  have a1 : ∀ x, (Channel.chebMats q n).BBB x = scalarProduct q (n + 4) psi (expandC psi x) := fun x => entry_test q (n + 4) n 0 psi psi x
  have a2 : ∀ x, (Channel.chebMats q n).ABB x = scalarProduct q (n + 4) psi (derivative^[2] (expandC psi x)) := fun x => entry_test q (n + 4) n 2 psi psi x
  have a3 : ∀ x, (Channel.chebMats q n).SBB x = scalarProduct q (n + 4) psi (derivative^[4] (expandC psi x)) := fun x => entry_test q (n + 4) n 4 psi psi x
  have a4 : ∀ x, (Channel.chebMats q n).BBD x = scalarProduct q (n + 4) psi (expandC phi x) := fun x => entry_test q (n + 4) (n + 2) 0 psi phi x
  have a5 : ∀ x, (Channel.chebMats q n).CBD x = scalarProduct q (n + 4) psi (derivative (expandC phi x)) := fun x => entry_test q (n + 4) (n + 2) 1 psi phi x
  have b1 : ((2 * (k1 * k1 + k2 * k2) : ℝ) : ℂ) = 2 * K := by rw [hK]; push_cast; ring
  have b2 : (((k1 * k1 + k2 * k2) ^ 2 : ℝ) : ℂ) = K ^ 2 := by rw [hK]; push_cast; ring
  simp only [lap, bilap, forceU, LinearMap.sub_apply, LinearMap.add_apply, LinearMap.smul_apply, a1, a2, a3, a4, a5, hx, hx', hKr, b1, b2, ← he,
    ← map_smul (scalarProduct (a := n) q (n + 4) psi), ← map_sub (scalarProduct (a := n) q (n + 4) psi),
    ← map_add (scalarProduct (a := n) q (n + 4) psi), ← map_neg (scalarProduct (a := n) q (n + 4) psi)]
  congr 1
  simp only [hE, Function.iterate_succ, Function.iterate_zero, Function.comp, id, map_sub, map_add, map_smul, derivative_smul]
  module

/-- One advance of both solvers with the same convection, from the same flow to the same flow. -/
theorem advance (q : Quad) (c : Ctx κ (Fin (n + 2) → ℂ) (Fin (n + 4) → ℂ) (Fin (n + 4) → ℂ)) (d : Channel.Ctx κ (Fin n → ℂ) (Fin (n + 2) → ℂ))
    (hM : c.M = chebMats q n) (hM' : d.M = Channel.chebMats q n) (eG : d.G = c.G) (eX1 : c.G.X1 = c.G.K1) (eX2 : c.G.X2 = c.G.K2)
    (hz : ∀ k, c.G.Ksq k = 0 ↔ k = c.G.zero) (enu : d.nu = c.nu) (hnu : 0 < c.nu) (γ δ : ℝ) (hδ : γ * d.dt = δ) (hδ0 : 0 < δ)
    (hSk : ∀ k, k ≠ c.G.zero → c.Sk1 k = 0) (eS : d.Sk = c.Sk1 c.G.zero) (h : Vec κ (Fin (n + 2) → ℂ)) (p : κ → Fin (n + 4) → ℂ)
    (U U' : Vel κ (Fin (n + 2) → ℂ)) (V V' : Channel.Vel κ (Fin n → ℂ) (Fin (n + 2) → ℂ)) (g g' : κ → Fin (n + 2) → ℂ)
    (hm : Momentum c δ (force c h) p U U') (hi : Incompressible c U') (h0 : U'.c0 c.G.zero = 0)
    (hs : Channel.SubEq d γ h V g V' g') (hV : Channel.Solenoidal d V g) (hV' : Channel.Solenoidal d V' g') (hUV : Same U V) :
    Same U' V' ∧ (g c.G.zero = 0 → g' c.G.zero = 0) := by
  have hc0 : 0 < c.nu * δ / 2 := by positivity
  have hK : ∀ k, 0 ≤ c.G.Ksq k := fun k => add_nonneg (mul_self_nonneg _) (mul_self_nonneg _)
  have hK0 : c.G.Ksq c.G.zero = 0 := (hz _).2 rfl
  have hk0 : c.G.K1 c.G.zero = 0 ∧ c.G.K2 c.G.zero = 0 := by
    have h0 : c.G.K1 c.G.zero * c.G.K1 c.G.zero + c.G.K2 c.G.zero * c.G.K2 c.G.zero = 0 := hK0
    exact ⟨by nlinarith [mul_self_nonneg (c.G.K1 c.G.zero), mul_self_nonneg (c.G.K2 c.G.zero)],
      by nlinarith [mul_self_nonneg (c.G.K1 c.G.zero), mul_self_nonneg (c.G.K2 c.G.zero)]⟩
  have hH : ∀ k x, (chebMats q n).BDD x - ((c.nu * δ / 2 : ℝ) : ℂ) • lap (chebMats q n).BDD (chebMats q n).ADD (c.G.Ksq k) x = 0 → x = 0 := by
    intro k x hx
    refine helmholtz_zero q (1 / (c.nu * δ / 2) + c.G.Ksq k) (by have := hK k; positivity) x ?_
    have hne : ((c.nu * δ / 2 : ℝ) : ℂ) ≠ 0 := by exact_mod_cast hc0.ne'
    apply smul_right_injective _ hne
    beta_reduce
    rw [smul_zero, ← hx, smul_sub, smul_smul]
    have : ((c.nu * δ / 2 : ℝ) : ℂ) * ((1 / (c.nu * δ / 2) + c.G.Ksq k : ℝ) : ℂ) = 1 + ((c.nu * δ / 2 : ℝ) : ℂ) * c.G.Ksq k := by
      rw [← Complex.ofReal_mul, mul_add, mul_one_div_cancel hc0.ne']; push_cast; ring
    rw [this]
    simp only [lap, LinearMap.sub_apply, LinearMap.smul_apply]
    module
  have hB : ∀ k x, lap (Channel.chebMats q n).BBB (Channel.chebMats q n).ABB (c.G.Ksq k) x - ((c.nu * δ / 2 : ℝ) : ℂ) •
      bilap (Channel.chebMats q n).BBB (Channel.chebMats q n).ABB (Channel.chebMats q n).SBB (c.G.Ksq k) x = 0 → x = 0 := by
    intro k x hx
    have hk := hK k
    apply (Channel.biharmonic_bijective q (n + 4) n le_rfl (-(c.nu * δ / 2)) (1 + 2 * (c.nu * δ / 2) * c.G.Ksq k)
      (-(c.G.Ksq k + (c.nu * δ / 2) * c.G.Ksq k ^ 2)) (by linarith) (by positivity) (by
        have : 0 ≤ c.G.Ksq k + (c.nu * δ / 2) * c.G.Ksq k ^ 2 := by positivity
        linarith)).1
    beta_reduce
    simp only [map_zero, smul_zero, add_zero]
    rw [← hx]
    simp only [lap, bilap, LinearMap.sub_apply, LinearMap.add_apply, LinearMap.smul_apply, Channel.chebMats]
    push_cast
    module
  obtain ⟨s0, s1, s2, s3⟩ := hs
  obtain ⟨v0, v1, -⟩ := hV
  obtain ⟨w0, w1, w2⟩ := hV'
  simp only [eG, hM'] at v0 v1 w0 w1 w2 s0 s1 s2 s3
  simp only [enu, hδ, eX1, eX2, eS] at s0 s1 s2 s3
  simp only [Incompressible, hM] at hi
  simp only [Momentum, force, hM] at hm
  refine ⟨fun k => ?_, fun hg => ?_⟩
  · obtain ⟨m0, m1, m2⟩ := hm k
    obtain ⟨e0, e1, e2⟩ := hUV k
    by_cases hk : k = c.G.zero
    · subst hk
      have hl : lap (chebMats q n).BDD (chebMats q n).ADD 0 = (chebMats q n).ADD := by ext v; simp [lap]
      have hH0 := hH c.G.zero
      rw [hK0, hl] at m1 m2 hH0
      rw [hk0.1] at m1
      rw [hk0.2] at m2
      rw [e1] at m1
      rw [e2] at m2
      refine ⟨by rw [h0, w2, map_zero, map_zero], cn_unique hH0 (F := (chebMats q n).BDD (h.c1 c.G.zero) - c.Sk1 c.G.zero) (by simpa using m1) s2,
        cn_unique hH0 (F := (chebMats q n).BDD (h.c2 c.G.zero)) (by simpa using m2) s3⟩
    · have hkne : c.G.K1 k * c.G.K1 k + c.G.K2 k * c.G.K2 k ≠ 0 := fun e => hk ((hz k).1 e)
      have dV := (Channel.continuity_pointwise q n _ _ _ _ _).1 (v0 k)
      have dV' := (Channel.continuity_pointwise q n _ _ _ _ _).1 (w0 k)
      have dU := dV
      rw [← e0, ← e1, ← e2] at dU
      have dU' := (continuity_iff q _ _ _ _ _).1 (hi k)
      obtain ⟨b, hb⟩ := exists_biharmonic _ _ _ _ _ dU'
      rw [hSk k hk, sub_zero] at m1
      have cu := wallNormal_step q c.nu δ (c.G.K1 k) (c.G.K2 k) (h.c0 k) (h.c1 k) (h.c2 k) _ _ _ _ _ _ (p k) (V.u k) b e0.symm hb dU dU' m0 m1 m2
      have hu : b = V'.u k := cn_unique (hB k) cu (s0 k hk)
      rw [hu] at hb
      have cg := curl_cn _ _ _ _ _ _ _ _ _ _ _ _ _ m1 m2
      rw [e1, e2, v1 k hk] at cg
      have hg : curl (c.G.K1 k) (c.G.K2 k) (U'.c1 k) (U'.c2 k) = g' k := by
        refine cn_unique (hH k) cg ?_
        have := s1 k
        simp only [forceG, curl, map_sub, map_smul] at this ⊢
        exact this
      obtain ⟨r1, r2⟩ := vw_unique (c.G.K1 k) (c.G.K2 k) hkne (U'.c1 k) (U'.c2 k) (V'.v k) (V'.w k) (by
        apply phi_injective
        rw [← hb] at dU'
        simp only [map_add, map_smul]
        exact add_left_cancel (dU'.trans dV'.symm)) (hg.trans (w1 k hk).symm)
      exact ⟨hb.symm, r1, r2⟩
  · have s := s1 c.G.zero
    rw [hg] at s
    refine cn_unique (hH c.G.zero) s ?_
    simp [CrankNicolson, forceG, curl, hk0.1, hk0.2]

/-! ### The convection -/

theorem chebWall_exact (q : Quad) (n : ℕ) : (chebWall q n).Exact where
  projD d := (Channel.C73_cheb_exact q n).projD d
  projC d := (Channel.C73_cheb_exact q n).projC d
  ctd d := (Channel.C73_cheb_exact q n).ctd d
  chebB d := (Channel.C73_cheb_exact q n).chebD d
  chebD d := (Channel.C73_cheb_exact q n).chebD d

theorem chebWall_same (q : Quad) (n : ℕ) : (chebWall q n).Same where
  fB := rfl
  projB := rfl
  toB _ := rfl
  toD _ := rfl

section Runs

variable {N M : Fin 2 → ℕ} {L : Fin 2 → ℝ}

theorem same_field (q : Quad) (U : Vel (RModes N) (Fin (n + 2) → ℂ)) (V : Channel.Vel (RModes N) (Fin n → ℂ) (Fin (n + 2) → ℂ)) (h : Same U V) :
    Channel.fieldU (chebWall q n) L (asVel U) = Channel.fieldU (Channel.chebWall q n) L V ∧
    Channel.fieldV (chebWall q n) L (asVel U) = Channel.fieldV (Channel.chebWall q n) L V ∧
    Channel.fieldW (chebWall q n) L (asVel U) = Channel.fieldW (Channel.chebWall q n) L V := by
  refine ⟨congrArg (Channel.fieldOf N L) (funext fun k => (h k).1), congrArg (Channel.fieldOf N L) (funext fun k => ?_),
    congrArg (Channel.fieldOf N L) (funext fun k => ?_)⟩
  · exact congrArg (expandC phi) (h k).2.1
  · exact congrArg (expandC phi) (h k).2.2

/-- The convections of the two solvers agree in the standard and in the rotational form. -/
theorem same_conv (q : Quad) (kind : Channel.ConvKind) (hkind : kind = .standard ∨ kind = .vortex) (hN : ∀ i, 0 < N i) (hL : ∀ i, L i ≠ 0)
    (d : Channel.Ctx (RModes N) (Fin n → ℂ) (Fin (n + 2) → ℂ)) (hG : d.G = waveGrid N L hN)
    (U : Vel (RModes N) (Fin (n + 2) → ℂ)) (V : Channel.Vel (RModes N) (Fin n → ℂ) (Fin (n + 2) → ℂ)) (g : RModes N → Fin (n + 2) → ℂ)
    (h : Same U V) (hV : Channel.Solenoidal d V g) (hg : g d.G.zero = 0) :
    Channel.convectionCoupled kind (chebWall q n) (rspace N M) d.G (asVel U) = Channel.convection kind (Channel.chebWall q n) (rspace N M) d.G V g := by
  obtain ⟨f0, f1, f2⟩ := same_field (L := L) q U V h
  rcases hkind with rfl | rfl
  · rw [Channel.C73_coupled_standard _ (chebWall_exact q n) L hL d.G (by rw [hG]; rfl) (by rw [hG]; rfl) _ (fun k => by
        obtain ⟨e, he⟩ := Channel.derivative_psi n (V.u k)
        exact ⟨e, by
          show expandC phi e = derivative (expandC phi (U.c0 k))
          rw [(h k).1, he]⟩),
      Channel.C73_standard _ (Channel.C73_cheb_exact q n) L hL d.G (by rw [hG]; rfl) (by rw [hG]; rfl) _ _ (fun k => by
        obtain ⟨e, he⟩ := Channel.derivative_psi n (V.u k)
        exact ⟨e, he⟩), f0, f1, f2]
    rfl
  · rw [Channel.C73_coupled_vortex _ (chebWall_exact q n) (chebWall_same q n) L hL d.G (by rw [hG]; rfl) (by rw [hG]; rfl),
      Channel.C73_vortex _ (Channel.C73_cheb_exact q n) L hL d.G (by rw [hG]; rfl) (by rw [hG]; rfl) _ _ (by
        funext k
        by_cases hk : k = d.G.zero
        · have hz := (waveGrid_zero N L hN hL k).2 (by rw [hk, hG])
          have h0 : d.G.K1 k * d.G.K1 k + d.G.K2 k * d.G.K2 k = 0 := by rw [hG]; exact hz
          have a1 : d.G.K1 k = 0 := by nlinarith [mul_self_nonneg (d.G.K1 k), mul_self_nonneg (d.G.K2 k)]
          have a2 : d.G.K2 k = 0 := by nlinarith [mul_self_nonneg (d.G.K1 k), mul_self_nonneg (d.G.K2 k)]
          rw [hk] at a1 a2 ⊢
          rw [hg, Channel.vorticity, a1, a2]; simp
        · exact (hV.2.1 k hk).symm), f0, f1, f2]
    rfl

/-- The two solvers are set up for the same problem: Chebyshev bases with the same quadrature, the same wavenumbers, viscosity, time step, mask and
source, and the same form of the convection, standard or rotational. -/
structure Setup (q : Quad) (n : ℕ) (M : Fin 2 → ℕ) (L : Fin 2 → ℝ) (hN : ∀ i, 0 < N i)
    (c : Ctx (RModes N) (Fin (n + 2) → ℂ) (Fin (n + 4) → ℂ) (Fin (n + 4) → ℂ)) (d : Channel.Ctx (RModes N) (Fin n → ℂ) (Fin (n + 2) → ℂ))
    (kind : Channel.ConvKind) : Prop where
  sides : ∀ i, L i ≠ 0
  matsC : c.M = chebMats q n
  matsK : d.M = Channel.chebMats q n
  gridC : c.G = waveGrid N L hN
  gridK : d.G = waveGrid N L hN
  nu : d.nu = c.nu
  dt : d.dt = c.dt
  nu_pos : 0 < c.nu
  dt_pos : 0 < c.dt
  mask : d.mask = c.mask
  source : ∀ k, k ≠ c.G.zero → c.Sk1 k = 0
  mean : d.Sk = c.Sk1 c.G.zero
  form : kind = .standard ∨ kind = .vortex
  convC : c.conv = fun U => Channel.convectionCoupled kind (chebWall q n) (rspace N M) c.G (asVel U)
  convK : d.conv = Channel.convection kind (Channel.chebWall q n) (rspace N M) d.G

variable {q : Quad} {hN : ∀ i, 0 < N i} {c : Ctx (RModes N) (Fin (n + 2) → ℂ) (Fin (n + 4) → ℂ) (Fin (n + 4) → ℂ)}
  {d : Channel.Ctx (RModes N) (Fin n → ℂ) (Fin (n + 2) → ℂ)} {kind : Channel.ConvKind}

theorem Setup.only_mean (S : Setup q n M L hN c d kind) (k : RModes N) : c.G.Ksq k = 0 ↔ k = c.G.zero := by
  rw [S.gridC]; exact waveGrid_zero N L hN S.sides k

theorem Setup.only_mean' (S : Setup q n M L hN c d kind) (k : RModes N) : d.G.Ksq k = 0 ↔ k = d.G.zero := by
  rw [S.gridK]; exact waveGrid_zero N L hN S.sides k

theorem Setup.zeros (S : Setup q n M L hN c d kind) : c.G.K1 c.G.zero = 0 ∧ c.G.K2 c.G.zero = 0 := by
  have h0 : c.G.K1 c.G.zero * c.G.K1 c.G.zero + c.G.K2 c.G.zero * c.G.K2 c.G.zero = 0 := (S.only_mean _).2 rfl
  exact ⟨by nlinarith [mul_self_nonneg (c.G.K1 c.G.zero), mul_self_nonneg (c.G.K2 c.G.zero)],
    by nlinarith [mul_self_nonneg (c.G.K1 c.G.zero), mul_self_nonneg (c.G.K2 c.G.zero)]⟩

theorem Setup.conv (S : Setup q n M L hN c d kind) (U V g) (h : Same U V) (hV : Channel.Solenoidal d V g) (hg : g d.G.zero = 0) :
    c.conv U = d.conv V g := by
  rw [S.convC, S.convK, S.gridC, ← S.gridK]
  exact same_conv q kind S.form hN S.sides d S.gridK U V g h hV hg

/-- C98: Coupled and KMM, started from the same divergence free flow with the same stored convection, have the same velocity after every step.
`updC` and `updK` are the same `update`, which may change the mean flow. -/
theorem C98_kmm (S : Setup q n M L hN c d kind) (solve : Vec (RModes N) (Fin (n + 2) → ℂ) → Vel (RModes N) (Fin (n + 2) → ℂ) × (RModes N → Fin (n + 4) → ℂ))
    (hs : Solves c (2 / c.nu / c.dt) (2 / c.nu) (rest n) (pinFirst n) (pinLast n) solve)
    (la : Channel.LA (RModes N) (Fin n → ℂ) (Fin (n + 2) → ℂ)) (hla : la.Solves d.nu d.dt d.G d.M)
    (updC : Vel (RModes N) (Fin (n + 2) → ℂ) → Vel (RModes N) (Fin (n + 2) → ℂ))
    (updK : Channel.Vel (RModes N) (Fin n → ℂ) (Fin (n + 2) → ℂ) → Channel.Vel (RModes N) (Fin n → ℂ) (Fin (n + 2) → ℂ))
    (hupd : ∀ U V, Same U V → Same (updC U) (updK V)) (hmean : MeanOnly d.G.zero updK)
    (s0 : St (RModes N) (Fin (n + 2) → ℂ) (Fin (n + 4) → ℂ)) (t0 : Channel.St (RModes N) (Fin n → ℂ) (Fin (n + 2) → ℂ))
    (h0 : Same s0.U t0.U) (hsol : Channel.Solenoidal d t0.U t0.g) (hg : t0.g d.G.zero = 0) (hU0 : t0.U0 = t0.U) (hH1 : s0.H1 = t0.H1) (m : ℕ) :
    let U := ((tick c solve updC)^[m] s0).U
    let V := ((Channel.tick d la updK)^[m] t0).U
    Same U V ∧ Channel.fieldU (chebWall q n) L (asVel U) = Channel.fieldU (Channel.chebWall q n) L V ∧
      Channel.fieldV (chebWall q n) L (asVel U) = Channel.fieldV (Channel.chebWall q n) L V ∧
      Channel.fieldW (chebWall q n) L (asVel U) = Channel.fieldW (Channel.chebWall q n) L V := by
  have key : let s := (tick c solve updC)^[m] s0
      let t := (Channel.tick d la updK)^[m] t0
      Same s.U t.U ∧ Channel.Solenoidal d t.U t.g ∧ t.g d.G.zero = 0 ∧ t.U0 = t.U ∧ s.H1 = t.H1 := by
    induction m with
    | zero => exact ⟨h0, hsol, hg, hU0, hH1⟩
    | succ m ih =>
      simp only [Function.iterate_succ_apply'] at ih ⊢
      generalize (tick c solve updC)^[m] s0 = s at ih ⊢
      generalize (Channel.tick d la updK)^[m] t0 = t at ih ⊢
      obtain ⟨i1, i2, i3, i4, i5⟩ := ih
      have hinj : ∀ u, rest n (c.M.CPD u) = 0 → u = 0 := fun u hu => rest_injective q u (by rw [S.matsC] at hu; exact hu)
      have a := C67_step c S.nu_pos.ne' S.dt_pos.ne' hinj S.zeros.1 S.zeros.2 solve hs s
      have b := Channel.C34_step d la (by rw [S.nu]; exact S.nu_pos.ne') (by rw [S.dt]; exact S.dt_pos.ne') hla t
      have hc := S.conv s.U t.U t.g i1 i2 i3
      have hz' := S.only_mean'
      have sol : Channel.Solenoidal d (Channel.integrate d la t).U (Channel.integrate d la t).g := Channel.C33_kmm d la hla.tdmaD hz' _ _ _
      have eg : d.G = c.G := by rw [S.gridC, S.gridK]
      have hsub : Channel.SubEq d 1 (ab2 c (c.conv s.U) s.H1) t.U t.g (Channel.integrate d la t).U (Channel.integrate d la t).g := by
        simp only [Channel.SubEq, one_mul, hc, i5, ab2, ← S.mask]
        rw [i4] at b
        exact b
      obtain ⟨r1, r2⟩ := advance q c d S.matsC S.matsK eg (by rw [S.gridC]; rfl) (by rw [S.gridC]; rfl) S.only_mean S.nu S.nu_pos 1 c.dt
        (by rw [one_mul, S.dt]) S.dt_pos S.source S.mean _ _ _ _ _ _ _ _ a.1 a.2 (by simp [integrate]) hsub i2 sol i1
      refine ⟨hupd _ _ r1, Channel.solenoidal_upd d hz' updK hmean _ _ sol, ?_, rfl, hc⟩
      rw [eg]
      exact r2 (by rw [← eg]; exact i3)
  exact ⟨key.1, same_field q _ _ key.1⟩

/-! ### CoupledRK3 and KMMRK3 -/

omit [DecidableEq κ] in
theorem comb_force (c : Ctx κ (Fin (n + 2) → ℂ) (Fin (n + 4) → ℂ) (Fin (n + 4) → ℂ)) (x y : ℝ) (hxy : x + y = 1) (A B : Vec κ (Fin (n + 2) → ℂ))
    (hv : Vec κ (Fin (n + 2) → ℂ)) (h : y = 0 ∨ hv = force c (maskVec c.mask B)) :
    comb x y (force c (maskVec c.mask A)) hv = force c (Channel.combine c.mask x y A B) := by
  have hxy' : (x : ℂ) + y = 1 := by exact_mod_cast hxy
  have hx : (x : ℂ) = 1 - y := by rw [← hxy']; ring
  rcases h with h | h
  · subst h
    ext k : 2 <;> simp [comb, force, Channel.combine, Channel.maskVec_c0, Channel.maskVec_c1, Channel.maskVec_c2, hx]
  · subst h
    ext k : 2 <;>
    · simp only [comb, force, Channel.combine, Channel.maskVec_c0, Channel.maskVec_c1, Channel.maskVec_c2, map_smul, map_add, hx]
      module

/-- One substep of both solvers. -/
theorem same_substep (S : Setup q n M L hN c d kind)
    (solve : Fin 3 → Vec (RModes N) (Fin (n + 2) → ℂ) → Vel (RModes N) (Fin (n + 2) → ℂ) × (RModes N → Fin (n + 4) → ℂ))
    (la : Fin 3 → Channel.LA (RModes N) (Fin n → ℂ) (Fin (n + 2) → ℂ)) (rk : Fin 3)
    (hs : Solves c (2 / c.nu / c.dt / rkG rk) (2 / c.nu / rkG rk) (rest n) (pinFirst n) (pinLast n) (solve rk))
    (hla : (la rk).Solves3 d.nu d.dt (Channel.rkA rk + Channel.rkB rk) d.G d.M)
    (s : St3 (RModes N) (Fin (n + 2) → ℂ) (Fin (n + 4) → ℂ)) (t : Channel.St3 (RModes N) (Fin n → ℂ) (Fin (n + 2) → ℂ))
    (h0 : Same s.U t.U) (hsol : Channel.Solenoidal d t.U t.g) (hg : t.g d.G.zero = 0) (B : Vec (RModes N) (Fin (n + 2) → ℂ))
    (hB : Channel.rkB rk = 0 ∨ s.hv0 = force c (maskVec c.mask B) ∧ Channel.Stored d B t) :
    Same (substep c solve rk s).U (Channel.substep d la rk t).U ∧
    Channel.Solenoidal d (Channel.substep d la rk t).U (Channel.substep d la rk t).g ∧ (Channel.substep d la rk t).g d.G.zero = 0 ∧
    (substep c solve rk s).hv0 = force c (maskVec c.mask (c.conv s.U)) ∧ Channel.Stored d (c.conv s.U) (Channel.substep d la rk t) := by
  have hγ : Channel.rkA rk + Channel.rkB rk = rkG rk := by
    obtain ⟨e0, e1, e2, -⟩ := Channel.C35_fractions
    fin_cases rk
    · exact e0
    · exact e1
    · exact e2
  have hγ0 : 0 < rkG rk := by fin_cases rk <;> norm_num [rkG]
  have hβ : 2 / c.nu / rkG rk ≠ 0 := by have := S.nu_pos; positivity
  have hinj : ∀ u, rest n (c.M.CPD u) = 0 → u = 0 := fun u hu => rest_injective q u (by rw [S.matsC] at hu; exact hu)
  have hc := S.conv s.U t.U t.g h0 hsol hg
  have hz' := S.only_mean'
  have eg : d.G = c.G := by rw [S.gridC, S.gridK]
  have sol : Channel.Solenoidal d (Channel.substep d la rk t).U (Channel.substep d la rk t).g := Channel.C33_kmmrk3 d (la rk) hla.tdmaD hz' _ _ _ _
  obtain ⟨a1, a2⟩ := substep_eq c S.nu_pos.ne' S.dt_pos.ne' solve rk (rkG rk) hγ0.ne' hγ hs s
  have inc : Incompressible c (substep c solve rk s).U := solve_incompressible hs hβ hinj S.zeros.1 S.zeros.2 _
  have mz : (substep c solve rk s).U.c0 c.G.zero = 0 := mean_zero hs hβ hinj _
  have hsum : Channel.rkA rk / rkG rk + Channel.rkB rk / rkG rk = 1 := by rw [← add_div, hγ, div_self hγ0.ne']
  rw [forceOf, comb_force c _ _ hsum (c.conv s.U) B s.hv0 (by
    rcases hB with h | h
    · exact Or.inl (by rw [h, zero_div])
    · exact Or.inr h.1)] at a1
  have b := Channel.substep_eq d la (by rw [S.nu]; exact S.nu_pos.ne') (by rw [S.dt]; exact S.dt_pos.ne') rk hla t (rkG rk) hγ hγ0.ne' B
    (hB.imp id And.right)
  rw [← hc, S.mask] at b
  obtain ⟨r1, r2⟩ := advance q c d S.matsC S.matsK eg (by rw [S.gridC]; rfl) (by rw [S.gridC]; rfl) S.only_mean S.nu S.nu_pos (rkG rk) (rkG rk * c.dt)
    (by rw [S.dt]) (mul_pos hγ0 S.dt_pos) S.source S.mean _ _ _ _ _ _ _ _ a1 inc mz b hsol sol h0
  refine ⟨r1, sol, ?_, a2, ?_⟩
  · rw [eg]
    exact r2 (by rw [← eg]; exact hg)
  · rw [hc]
    exact Channel.substep_stored d la rk t

/-- C98 for CoupledRK3 and KMMRK3: nothing but the velocity has to agree at the start. -/
theorem C98_kmmrk3 (S : Setup q n M L hN c d kind)
    (solve : Fin 3 → Vec (RModes N) (Fin (n + 2) → ℂ) → Vel (RModes N) (Fin (n + 2) → ℂ) × (RModes N → Fin (n + 4) → ℂ))
    (hs : ∀ rk, Solves c (2 / c.nu / c.dt / rkG rk) (2 / c.nu / rkG rk) (rest n) (pinFirst n) (pinLast n) (solve rk))
    (la : Fin 3 → Channel.LA (RModes N) (Fin n → ℂ) (Fin (n + 2) → ℂ))
    (hla : ∀ rk, (la rk).Solves3 d.nu d.dt (Channel.rkA rk + Channel.rkB rk) d.G d.M)
    (updC : Vel (RModes N) (Fin (n + 2) → ℂ) → Vel (RModes N) (Fin (n + 2) → ℂ))
    (updK : Channel.Vel (RModes N) (Fin n → ℂ) (Fin (n + 2) → ℂ) → Channel.Vel (RModes N) (Fin n → ℂ) (Fin (n + 2) → ℂ))
    (hupd : ∀ U V, Same U V → Same (updC U) (updK V)) (hmean : MeanOnly d.G.zero updK)
    (s0 : St3 (RModes N) (Fin (n + 2) → ℂ) (Fin (n + 4) → ℂ)) (t0 : Channel.St3 (RModes N) (Fin n → ℂ) (Fin (n + 2) → ℂ))
    (h0 : Same s0.U t0.U) (hsol : Channel.Solenoidal d t0.U t0.g) (hg : t0.g d.G.zero = 0) (m : ℕ) :
    let U := ((tick3 c solve updC)^[m] s0).U
    let V := ((Channel.tick3 d la updK)^[m] t0).U
    Same U V ∧ Channel.fieldU (chebWall q n) L (asVel U) = Channel.fieldU (Channel.chebWall q n) L V ∧
      Channel.fieldV (chebWall q n) L (asVel U) = Channel.fieldV (Channel.chebWall q n) L V ∧
      Channel.fieldW (chebWall q n) L (asVel U) = Channel.fieldW (Channel.chebWall q n) L V := by
  have key : let s := (tick3 c solve updC)^[m] s0
      let t := (Channel.tick3 d la updK)^[m] t0
      Same s.U t.U ∧ Channel.Solenoidal d t.U t.g ∧ t.g d.G.zero = 0 := by
    induction m with
    | zero => exact ⟨h0, hsol, hg⟩
    | succ m ih =>
      simp only [Function.iterate_succ_apply'] at ih ⊢
      generalize (tick3 c solve updC)^[m] s0 = s at ih ⊢
      generalize (Channel.tick3 d la updK)^[m] t0 = t at ih ⊢
      obtain ⟨i1, i2, i3⟩ := ih
      obtain ⟨a1, a2, a3, a4, a5⟩ := same_substep S solve la 0 (hs 0) (hla 0) s t i1 i2 i3 (c.conv s.U) (Or.inl (by simp [Channel.rkB]))
      obtain ⟨b1, b2, b3, b4, b5⟩ := same_substep S solve la 1 (hs 1) (hla 1) _ _ a1 a2 a3 (c.conv s.U) (Or.inr ⟨a4, a5⟩)
      obtain ⟨c1, c2, c3, -, -⟩ := same_substep S solve la 2 (hs 2) (hla 2) _ _ b1 b2 b3 _ (Or.inr ⟨b4, b5⟩)
      exact ⟨hupd _ _ c1, Channel.solenoidal_upd d S.only_mean' updK hmean _ _ c2, c3⟩
  exact ⟨key.1, same_field q _ _ key.1⟩

/-! ### A common flow -/

/-- Every velocity of KMM is a velocity of Coupled. -/
theorem exists_same (V : Channel.Vel κ (Fin n → ℂ) (Fin (n + 2) → ℂ)) : ∃ U : Vel κ (Fin (n + 2) → ℂ), Same U V := by
  obtain ⟨T, hT⟩ := Channel.exists_expandC psi phi (a := n) (b := n + 2) fun j =>
    Channel.exists_phi (n + 2) _ (by rw [Channel.degree_psi]; exact_mod_cast (by have := j.2; omega : (j : ℕ) + 4 < n + 2 + 2))
      (Channel.psi_walls j).1 (Channel.psi_walls j).2.1
  exact ⟨⟨fun k => T (V.u k), V.v, V.w⟩, fun k => ⟨hT _, rfl, rfl⟩⟩

/-- A run of both solvers: linear systems with their solutions exist, and any flow along the walls `v = ∂ψ/∂z`, `w = -∂ψ/∂y` with a mean flow, is a
common start. -/
example (P : RModes ![8, 8] → Fin 5 → ℂ) (v w : Fin 5 → ℂ) : ∃ (c : Ctx (RModes ![8, 8]) (Fin 5 → ℂ) (Fin 7 → ℂ) (Fin 7 → ℂ))
    (d : Channel.Ctx (RModes ![8, 8]) (Fin 3 → ℂ) (Fin 5 → ℂ)) (solve : _) (la : Channel.LA (RModes ![8, 8]) (Fin 3 → ℂ) (Fin 5 → ℂ))
    (s0 : St (RModes ![8, 8]) (Fin 5 → ℂ) (Fin 7 → ℂ)) (t0 : Channel.St (RModes ![8, 8]) (Fin 3 → ℂ) (Fin 5 → ℂ)),
    Setup .GL 3 ![12, 12] ![1, 2] (fun i => by fin_cases i <;> norm_num) c d .vortex ∧
    Solves c (2 / c.nu / c.dt) (2 / c.nu) (rest 3) (pinFirst 3) (pinLast 3) solve ∧ la.Solves d.nu d.dt d.G d.M ∧
    Same s0.U t0.U ∧ Channel.Solenoidal d t0.U t0.g ∧ t0.g d.G.zero = 0 ∧ t0.U0 = t0.U ∧ s0.H1 = t0.H1 ∧
    t0.U.v d.G.zero = v ∧ t0.U.w d.G.zero = w ∧ ∀ k, k ≠ d.G.zero → t0.U.v k = (Complex.I * d.G.K2 k) • P k := by
  have hN : ∀ i : Fin 2, 0 < (![8, 8] : Fin 2 → ℕ) i := fun i => by fin_cases i <;> norm_num
  have hL : ∀ i : Fin 2, (![1, 2] : Fin 2 → ℝ) i ≠ 0 := fun i => by fin_cases i <;> norm_num
  let G := waveGrid ![8, 8] ![1, 2] hN
  let c : Ctx (RModes ![8, 8]) (Fin 5 → ℂ) (Fin 7 → ℂ) (Fin 7 → ℂ) :=
    { nu := 1 / 100, dt := 1 / 10, G := G, M := chebMats .GL 3, mask := none,
      conv := fun U => Channel.convectionCoupled .vortex (chebWall .GL 3) (rspace ![8, 8] ![12, 12]) G (asVel U),
      Sk1 := Function.update 0 G.zero 1 }
  let d : Channel.Ctx (RModes ![8, 8]) (Fin 3 → ℂ) (Fin 5 → ℂ) :=
    { nu := 1 / 100, dt := 1 / 10, G := G, M := Channel.chebMats .GL 3, mask := none,
      conv := Channel.convection .vortex (Channel.chebWall .GL 3) (rspace ![8, 8] ![12, 12]) G, Sk := 1 }
  obtain ⟨solve, hs, -⟩ := C97_coupled .GL hN hL c rfl rfl (by norm_num [c]) (by norm_num [c])
  obtain ⟨la, hla, -⟩ := Galerkin.C75_kmm .GL 3 G (1 / 100) (1 / 10) (by norm_num) (by norm_num)
  have hz := waveGrid_zero ![8, 8] ![1, 2] hN hL
  have h0 : G.K1 G.zero = 0 ∧ G.K2 G.zero = 0 := by
    have h0 : G.K1 G.zero * G.K1 G.zero + G.K2 G.zero * G.K2 G.zero = 0 := (hz _).2 rfl
    exact ⟨by nlinarith [mul_self_nonneg (G.K1 G.zero), mul_self_nonneg (G.K2 G.zero)],
      by nlinarith [mul_self_nonneg (G.K1 G.zero), mul_self_nonneg (G.K2 G.zero)]⟩
  let V : Channel.Vel (RModes ![8, 8]) (Fin 3 → ℂ) (Fin 5 → ℂ) :=
    ⟨0, Function.update (fun k => (Complex.I * G.K2 k) • P k) G.zero v, Function.update (fun k => -((Complex.I * G.K1 k) • P k)) G.zero w⟩
  obtain ⟨U, hU⟩ := exists_same V
  refine ⟨c, d, solve, la, ⟨U, 0, ⟨0, 0, 0⟩, ⟨0, 0, 0⟩, ⟨0, 0, 0⟩, U, 0⟩, ⟨V, Channel.vorticity G V, ⟨0, 0, 0⟩, ⟨0, 0, 0⟩, ⟨0, 0, 0⟩, V⟩, ?_, hs, hla, hU, ?_, ?_,
    rfl, rfl, ?_, ?_, ?_⟩
  · refine ⟨hL, rfl, rfl, rfl, rfl, rfl, rfl, by norm_num [c], by norm_num [c], rfl, fun k hk => ?_, ?_, Or.inr rfl, rfl, rfl⟩
    · show Function.update (0 : RModes ![8, 8] → Fin 5 → ℂ) G.zero 1 k = 0
      rw [Function.update_of_ne hk]; rfl
    · show 1 = Function.update (0 : RModes ![8, 8] → Fin 5 → ℂ) G.zero 1 G.zero
      rw [Function.update_self]
  · refine ⟨fun k => ?_, fun k _ => rfl, rfl⟩
    by_cases hk : k = G.zero
    · subst hk
      show Continuity _ _ (G.K1 G.zero) (G.K2 G.zero) _ _ _
      rw [h0.1, h0.2]
      simp [Continuity, V]
    · show Continuity _ _ (G.K1 k) (G.K2 k) (V.u k) (V.v k) (V.w k)
      have e : (Complex.I * G.K1 k) • V.v k + (Complex.I * G.K2 k) • V.w k = 0 := by
        simp only [V, Function.update_of_ne hk]
        module
      rw [Continuity, e]
      simp [V]
  · show Channel.vorticity G V G.zero = 0
    rw [Channel.vorticity, h0.1, h0.2]; simp
  · show Function.update (fun k => (Complex.I * G.K2 k) • P k) G.zero v G.zero = v
    rw [Function.update_self]
  · show Function.update (fun k => -((Complex.I * G.K1 k) • P k)) G.zero w G.zero = w
    rw [Function.update_self]
  · intro k hk
    show Function.update (fun k => (Complex.I * G.K2 k) • P k) G.zero v k = _
    rw [Function.update_of_ne hk]

/-! ### C77 for the coupled solvers -/

/-- An incompressible velocity of the coupled solvers is divergence free at every point. -/
theorem coupled_field (q : Quad) (c : Ctx (RModes N) (Fin (n + 2) → ℂ) (Fin (n + 4) → ℂ) (Fin (n + 4) → ℂ)) (hM : c.M = chebMats q n)
    (hG : c.G = waveGrid N L hN) (U : Vel (RModes N) (Fin (n + 2) → ℂ)) (h : Incompressible c U) :
    DivergenceFree (Channel.fieldU (chebWall q n) L (asVel U)) (Channel.fieldV (chebWall q n) L (asVel U)) (Channel.fieldW (chebWall q n) L (asVel U)) ∧
    NoSlip (Channel.fieldU (chebWall q n) L (asVel U)) (Channel.fieldV (chebWall q n) L (asVel U)) (Channel.fieldW (chebWall q n) L (asVel U)) := by
  have hd : ∀ k, derivative (expandC phi (U.c0 k)) + ((Complex.I * scaledWaves N L 0 k) • expandC phi (U.c1 k)
      + (Complex.I * scaledWaves N L 1 k) • expandC phi (U.c2 k)) = 0 := fun k => by
    have h3 := h k
    rw [hM, hG] at h3
    exact (continuity_iff q _ _ _ _ _).1 h3
  have hphi : ∀ (k : RModes N) (f : Fin (n + 2) → ℂ) (x : ℝ), (x = -1 ∨ x = 1) → (expandC phi f).eval (x : ℂ) = 0 := fun k f x hx => by
    rcases hx with rfl | rfl
    · simpa using (phi_wall f).2
    · simpa using (phi_wall f).1
  constructor
  · intro x y z
    rw [Channel.fieldU, Channel.fieldV, Channel.fieldW, Channel.fieldOf, Channel.fieldOf, Channel.fieldOf, Channel.dx_field, Channel.dy_field,
      Channel.dz_field, ← Channel.field_add, ← Channel.field_add]
    refine Channel.field_zero _ _ _ _ _ _ _ fun k => ?_
    have h5 := congrArg (eval (x : ℂ)) (hd k)
    rw [eval_zero] at h5
    rw [← h5, ← add_assoc]
    rfl
  · intro x y z hx
    refine ⟨Channel.field_zero _ _ _ _ _ _ _ fun k => hphi k _ x hx, Channel.field_zero _ _ _ _ _ _ _ fun k => hphi k _ x hx,
      Channel.field_zero _ _ _ _ _ _ _ fun k => hphi k _ x hx, ?_⟩
    rw [Channel.fieldU, Channel.fieldOf, Channel.dx_field]
    refine Channel.field_zero _ _ _ _ _ _ _ fun k => ?_
    have h5 := congrArg (eval (x : ℂ)) (hd k)
    rw [eval_add, eval_add, eval_smul, eval_smul, hphi k _ x hx, hphi k _ x hx, smul_zero, smul_zero, add_zero, add_zero, eval_zero] at h5
    exact h5

/-- What `update` may change: the mean flow along the walls. -/
def MeanOnlyC (zero : κ) {D : Type*} (upd : Vel κ D → Vel κ D) : Prop :=
  ∀ U, (upd U).c0 = U.c0 ∧ ∀ k, k ≠ zero → (upd U).c1 k = U.c1 k ∧ (upd U).c2 k = U.c2 k

theorem incompressible_upd {D P R : Type*} [AddCommGroup D] [Module ℂ D] [AddCommGroup P] [Module ℂ P] [AddCommGroup R] [Module ℂ R]
    (c : Ctx κ D P R) (h1 : c.G.K1 c.G.zero = 0) (h2 : c.G.K2 c.G.zero = 0) (upd : Vel κ D → Vel κ D) (hu : MeanOnlyC c.G.zero upd) (U : Vel κ D)
    (h : Incompressible c U) : Incompressible c (upd U) := by
  intro k
  obtain ⟨e, e'⟩ := hu U
  have h3 := h k
  by_cases hk : k = c.G.zero
  · subst hk
    rw [h1, h2] at h3 ⊢
    simp only [Complex.ofReal_zero, mul_zero, zero_smul, add_zero] at h3 ⊢
    rw [e, h3]
  · rw [e, (e' k hk).1, (e' k hk).2]
    exact h3

/-- C77 for Coupled: after any step from any state, with any convection, source and mask, the velocity is divergence free at every point and zero at
the walls. -/
theorem C77_coupled (q : Quad) (hL : ∀ i, L i ≠ 0) (c : Ctx (RModes N) (Fin (n + 2) → ℂ) (Fin (n + 4) → ℂ) (Fin (n + 4) → ℂ)) (hM : c.M = chebMats q n)
    (hG : c.G = waveGrid N L hN) (hnu : c.nu ≠ 0) (hdt : c.dt ≠ 0)
    (solve : Vec (RModes N) (Fin (n + 2) → ℂ) → Vel (RModes N) (Fin (n + 2) → ℂ) × (RModes N → Fin (n + 4) → ℂ))
    (hs : Solves c (2 / c.nu / c.dt) (2 / c.nu) (rest n) (pinFirst n) (pinLast n) solve)
    (upd : Vel (RModes N) (Fin (n + 2) → ℂ) → Vel (RModes N) (Fin (n + 2) → ℂ)) (hu : MeanOnlyC c.G.zero upd)
    (s : St (RModes N) (Fin (n + 2) → ℂ) (Fin (n + 4) → ℂ)) (m : ℕ) :
    let U := asVel ((tick c solve upd)^[m + 1] s).U
    DivergenceFree (Channel.fieldU (chebWall q n) L U) (Channel.fieldV (chebWall q n) L U) (Channel.fieldW (chebWall q n) L U) ∧
    NoSlip (Channel.fieldU (chebWall q n) L U) (Channel.fieldV (chebWall q n) L U) (Channel.fieldW (chebWall q n) L U) := by
  have h0 : c.G.K1 c.G.zero * c.G.K1 c.G.zero + c.G.K2 c.G.zero * c.G.K2 c.G.zero = 0 := by
    rw [hG]; exact (waveGrid_zero N L hN hL _).2 rfl
  have h1 : c.G.K1 c.G.zero = 0 := by nlinarith [mul_self_nonneg (c.G.K1 c.G.zero), mul_self_nonneg (c.G.K2 c.G.zero)]
  have h2 : c.G.K2 c.G.zero = 0 := by nlinarith [mul_self_nonneg (c.G.K1 c.G.zero), mul_self_nonneg (c.G.K2 c.G.zero)]
  have hinj : ∀ u, rest n (c.M.CPD u) = 0 → u = 0 := fun u hu => rest_injective q u (by rw [hM] at hu; exact hu)
  refine coupled_field q c hM hG _ ?_
  rw [Function.iterate_succ_apply']
  exact incompressible_upd c h1 h2 upd hu _ (C67_step c hnu hdt hinj h1 h2 solve hs _).2

/-- C77 for CoupledRK3. -/
theorem C77_coupledrk3 (q : Quad) (hL : ∀ i, L i ≠ 0) (c : Ctx (RModes N) (Fin (n + 2) → ℂ) (Fin (n + 4) → ℂ) (Fin (n + 4) → ℂ)) (hM : c.M = chebMats q n)
    (hG : c.G = waveGrid N L hN) (hnu : c.nu ≠ 0) (hdt : c.dt ≠ 0)
    (solve : Fin 3 → Vec (RModes N) (Fin (n + 2) → ℂ) → Vel (RModes N) (Fin (n + 2) → ℂ) × (RModes N → Fin (n + 4) → ℂ))
    (hs : ∀ rk, Solves c (2 / c.nu / c.dt / rkG rk) (2 / c.nu / rkG rk) (rest n) (pinFirst n) (pinLast n) (solve rk))
    (upd : Vel (RModes N) (Fin (n + 2) → ℂ) → Vel (RModes N) (Fin (n + 2) → ℂ)) (hu : MeanOnlyC c.G.zero upd)
    (s : St3 (RModes N) (Fin (n + 2) → ℂ) (Fin (n + 4) → ℂ)) (m : ℕ) :
    let U := asVel ((tick3 c solve upd)^[m + 1] s).U
    DivergenceFree (Channel.fieldU (chebWall q n) L U) (Channel.fieldV (chebWall q n) L U) (Channel.fieldW (chebWall q n) L U) ∧
    NoSlip (Channel.fieldU (chebWall q n) L U) (Channel.fieldV (chebWall q n) L U) (Channel.fieldW (chebWall q n) L U) := by
  have h0 : c.G.K1 c.G.zero * c.G.K1 c.G.zero + c.G.K2 c.G.zero * c.G.K2 c.G.zero = 0 := by
    rw [hG]; exact (waveGrid_zero N L hN hL _).2 rfl
  have h1 : c.G.K1 c.G.zero = 0 := by nlinarith [mul_self_nonneg (c.G.K1 c.G.zero), mul_self_nonneg (c.G.K2 c.G.zero)]
  have h2 : c.G.K2 c.G.zero = 0 := by nlinarith [mul_self_nonneg (c.G.K1 c.G.zero), mul_self_nonneg (c.G.K2 c.G.zero)]
  have hinj : ∀ u, rest n (c.M.CPD u) = 0 → u = 0 := fun u hu => rest_injective q u (by rw [hM] at hu; exact hu)
  refine coupled_field q c hM hG _ ?_
  rw [Function.iterate_succ_apply']
  obtain ⟨-, -, -, -, -, -, -, -, -, -, h, -⟩ := C67_rk3 c hnu hdt hinj h1 h2 solve hs ((tick3 c solve upd)^[m] s)
  exact incompressible_upd c h1 h2 upd hu _ h

end Runs

end SpectralDNS.Coupled

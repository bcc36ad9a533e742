import Verif.Lemmas.MKM
import Verif.Props.ChannelStep

/-!
# C85: the turbulent channel demo starts divergence free and keeps its flux
-/

namespace SpectralDNS.Channel

open Polynomial Periodic Spec.Field

variable {N : Fin 2 → ℕ} {n : ℕ} {L : Fin 2 → ℝ}

/-- C85: `dx` of the array of a velocity component along the walls is the flux of the function it represents, for any distribution over the
ranks; Lobatto points need an even number (C52). -/
theorem C85_dx (q : Quad) (hq : q = .GC ∨ n % 2 = 0) (hN : ∀ i, 0 < N i) (hL : ∀ i, 0 < L i) {R : Type*} [Fintype R]
    (blocks : R → Utilities.Block (n + 4) (Periodic.Grid N)) (hb : Utilities.Tiles blocks) (v : RModes N → Fin (n + 2) → ℂ) :
    dxChannel q n L blocks (bwdD (chebWall q n) (rspace N N) v) = flux L (fieldOf N L fun k => (chebWall q n).fD (v k)) := by
  rw [dxChannel_eq q L hN blocks hb, flux_fieldOf q L hN hL, dxRule_exact q hq _ (degree_reProfile _)]

/-- C85: after the flux control `dx` returns the prescribed flux, whatever the velocity was, any number of points. -/
theorem C85_measured (q : Quad) (hN : ∀ i, 0 < N i) (hL : ∀ i, 0 < L i) {R : Type*} [Fintype R]
    (blocks : R → Utilities.Block (n + 4) (Periodic.Grid N)) (hb : Utilities.Tiles blocks) (F : ℝ) (v : RModes N → Fin (n + 2) → ℂ) :
    dxChannel q n L blocks (bwdD (chebWall q n) (rspace N N) (fluxControl q n 2 L (waveGrid N L hN).zero blocks F v)) = F := by
  have h0 := hL 0
  have h1 := hL 1
  rw [dxChannel_eq q L hN blocks hb, fluxControl]
  rw [Function.update_self, reProfile_update]
  simp only [eval_add, eval_smul, smul_eq_mul]
  have hphi := dxRule_exact_any (n := n) q (phi 0) (by rw [degree_phi]; exact_mod_cast (by omega : 0 + 2 < n + 3))
  rw [dxRule_add, dxRule_smul, hphi, integ_phi0, mul_add, ← dxChannel_eq q L hN blocks hb]
  field_simp
  ring

/-- C85: the flux control adds a multiple of the parabola `1 - x^2` to the function, nothing else. -/
theorem C85_control (q : Quad) (hq : q = .GC ∨ n % 2 = 0) (hN : ∀ i, 0 < N i) (hL : ∀ i, 0 < L i) {R : Type*} [Fintype R]
    (blocks : R → Utilities.Block (n + 4) (Periodic.Grid N)) (hb : Utilities.Tiles blocks) (F : ℝ)
    (U : Vel (RModes N) (Fin n → ℂ) (Fin (n + 2) → ℂ)) (x y z : ℝ) :
    let U' := updateMKM q n 2 L (waveGrid N L hN).zero blocks F U
    let W := chebWall q n
    fieldV W L U' x y z = fieldV W L U x y z + (F - flux L (fieldV W L U)) / (4 / 3 * L 0 * L 1) * (1 - x ^ 2) ∧
    fieldU W L U' x y z = fieldU W L U x y z ∧ fieldW W L U' x y z = fieldW W L U x y z := by
  classical
  refine ⟨?_, rfl, rfl⟩
  set c : ℝ := (F - flux L (fieldV (chebWall q n) L U)) / (2 * L 0 * L 1 * 4 / 3) with hc
  have hv : (updateMKM q n 2 L (waveGrid N L hN).zero blocks F U).v =
      fun k => U.v k + if k = (waveGrid N L hN).zero then Pi.single 0 (c : ℂ) else 0 := by
    funext k
    simp only [updateMKM, fluxControl]
    rw [C85_dx q hq hN hL blocks hb]
    by_cases hk : k = (waveGrid N L hN).zero
    · subst hk
      rw [Function.update_self, if_pos rfl]
      funext j
      by_cases hj : j = 0
      · subst hj; rw [Function.update_self, Pi.add_apply, Pi.single_eq_same]; rfl
      · rw [Function.update_of_ne hj, Pi.add_apply, Pi.single_eq_of_ne hj, add_zero]
    · rw [Function.update_of_ne hk, if_neg hk, add_zero]
  have hlin : fieldV (chebWall q n) L (updateMKM q n 2 L (waveGrid N L hN).zero blocks F U) x y z = fieldV (chebWall q n) L U x y z +
      fieldOf N L (fun k => (chebWall q n).fD (if k = (waveGrid N L hN).zero then Pi.single 0 (c : ℂ) else 0)) x y z := by
    unfold fieldV
    rw [hv]
    simp only [map_add]
    exact field_add _ _ _ _ _ _ _ _
  rw [hlin]
  congr 1
  unfold fieldOf field
  rw [Finset.sum_eq_single (waveGrid N L hN).zero (fun k _ hk => by beta_reduce; rw [if_neg hk]; simp) (by simp)]
  beta_reduce
  rw [if_pos rfl, rweight_waveGrid_zero]
  have hph : ((chebWall q n).fD (Pi.single 0 (c : ℂ))).eval (x : ℂ) = ((c * (2 * (1 - x ^ 2)) : ℝ) : ℂ) := by
    show (expandC phi (Pi.single 0 (c : ℂ))).eval (x : ℂ) = _
    rw [expandC_apply, eval_finsetSum, Finset.sum_eq_single 0 (fun j _ hj => by rw [Pi.single_eq_of_ne hj]; simp) (by simp),
      Pi.single_eq_same, eval_smul, eval_ofReal]
    simp only [phi, Fin.val_zero]
    norm_num [Chebyshev.T_two]
    left
    ring
  rw [hph]
  simp only [scaledWaves, waves_waveGrid_zero]
  have h0 := (hL 0).ne'
  have h1 := (hL 1).ne'
  simp only [Int.cast_zero, mul_zero, Complex.ofReal_zero, zero_mul, add_zero, Complex.exp_zero, mul_one, Complex.ofReal_one, one_mul,
    Complex.ofReal_re]
  rw [hc]
  field_simp

/-- C85: after the flux control the flux of the function is the prescribed one. -/
theorem C85_flux (q : Quad) (hq : q = .GC ∨ n % 2 = 0) (hN : ∀ i, 0 < N i) (hL : ∀ i, 0 < L i) {R : Type*} [Fintype R]
    (blocks : R → Utilities.Block (n + 4) (Periodic.Grid N)) (hb : Utilities.Tiles blocks) (F : ℝ) (v : RModes N → Fin (n + 2) → ℂ) :
    flux L (fieldOf N L fun k => (chebWall q n).fD (fluxControl q n 2 L (waveGrid N L hN).zero blocks F v k)) = F := by
  rw [← C85_dx q hq hN hL blocks hb]
  exact C85_measured q hN hL blocks hb F v

/-! ## The start -/

/-- The unperturbed profile is the parabola between the walls. -/
theorem wallDist_parabola (x : ℝ) : wallDist x - 0.5 * wallDist x ^ 2 = (1 - x ^ 2) / 2 := by
  unfold wallDist
  split_ifs <;> norm_num <;> ring

/-- C85: without the perturbation the demo starts from the laminar parabola. -/
theorem C85_parabola (q : Quad) (nu Retau : ℝ) (hN : ∀ i, 0 < N i) (j : Fin (n + 4)) (p : Periodic.Grid N) :
    mkmU1 q n L nu Retau hN (fun _ _ => 0) j p = 46.9091 * (nu * Retau) * ((1 - quadPoint q (n + 4) j ^ 2) / 2) := by
  rw [← wallDist_parabola]; simp [mkmU1]

theorem quadPoint_abs (q : Quad) (m j : ℕ) : |quadPoint q m j| ≤ 1 := by
  cases q <;> exact abs_le.2 ⟨Real.neg_one_le_cos _, Real.cos_le_one _⟩

/-- C85: the perturbation of the demo is damped towards both walls in proportion to the distance to the nearest one, for any random numbers. -/
theorem C85_perturbation (q : Quad) (nu Retau : ℝ) (hnu : 0 ≤ nu) (hR : 0 ≤ Retau) (hN : ∀ i, 0 < N i)
    (dev : Fin (n + 4) → Periodic.Grid N → ℝ) (D : ℝ) (hD : ∀ j p, |dev j p| ≤ D) (j : Fin (n + 4)) (p : Periodic.Grid N) :
    let x := quadPoint q (n + 4) j
    let Um := 46.9091 * (nu * Retau)
    |mkmU1 q n L nu Retau hN dev j p - Um * ((1 - x ^ 2) / 2)| ≤ Um * Real.exp 0.5 * Retau / 400 * (1 - |x|) * D ∧
    |mkmU2 q n L nu Retau hN dev j p| ≤ Um * Retau / 200 * (1 - |x|) * D := by
  intro x Um
  have hx : |x| ≤ 1 := quadPoint_abs q (n + 4) j
  have hY : wallDist x = 1 - |x| := by
    unfold wallDist
    split_ifs with h
    · rw [abs_of_neg h]; ring
    · rw [abs_of_nonneg (not_lt.1 h)]
  have hU : 0 ≤ Um := by positivity
  have hY0 : 0 ≤ 1 - |x| := by linarith
  have damp : ∀ (c e t d : ℝ), 0 ≤ c → 0 ≤ e → |t| ≤ 1 → |d| ≤ D → ∀ s ≤ 0, |c * (1 - |x|) * (e * Real.exp s) * t * d| ≤ c * e * (1 - |x|) * D := fun c e t d hc he ht hd s hs => by
    rw [abs_mul, abs_mul, abs_of_nonneg (a := c * (1 - |x|) * (e * Real.exp s)) (by positivity)]
    have h1 : Real.exp s ≤ 1 := Real.exp_le_one_iff.2 hs
    calc c * (1 - |x|) * (e * Real.exp s) * |t| * |d| ≤ c * (1 - |x|) * (e * 1) * 1 * D := by gcongr
      _ = _ := by ring
  constructor
  · rw [← wallDist_parabola]
    have hduplus : nu * Retau * (Um * 0.2 / (nu * Retau)) = Um * 0.2 := by
      by_cases h : nu * Retau = 0
      · simp [Um, h]
      · rw [mul_div_assoc']; exact mul_div_cancel_left₀ _ h
    have e := damp (Um * Retau / 400) (Real.exp 0.5) (Real.cos (L 1 / 100 * (L 1 * ((p 1 : ℕ) : ℝ) / N 1 * Retau)))
      (dev j (Function.update p 0 ⟨0, hN 0⟩)) (by positivity) (Real.exp_pos _).le (Real.abs_cos_le_one _) (hD _ _)
      (-0.00055 * ((1 - |x|) * Retau) ^ 2) (by nlinarith [sq_nonneg ((1 - |x|) * Retau)])
    rw [← Real.exp_add] at e
    refine le_trans (le_of_eq ?_) (e.trans (le_of_eq (by ring)))
    congr 1
    simp only [mkmU1]
    rw [show quadPoint q (n + 4) j = x from rfl, hY, show 46.9091 * (nu * Retau) = Um from rfl, hduplus, add_comm (0.5 : ℝ), show (2.0 : ℝ) = 2 by norm_num]
    ring
  · have e := damp (Um * Retau / 200) 1 (Real.sin (L 0 / 200 * (L 0 * ((p 0 : ℕ) : ℝ) / N 0 * Retau)))
      (dev j (Function.update p 1 ⟨0, hN 1⟩)) (by positivity) zero_le_one (Real.abs_sin_le_one _) (hD _ _)
      (-0.00055 * ((1 - |x|) * Retau) ^ 2) (by nlinarith [sq_nonneg ((1 - |x|) * Retau)])
    refine le_trans (le_of_eq ?_) (e.trans (le_of_eq (by ring)))
    congr 1
    simp only [mkmU2]
    rw [show quadPoint q (n + 4) j = x from rfl, hY, show 46.9091 * (nu * Retau) = Um from rfl]
    ring

theorem settle_const (q : Quad) (mask : Option (RModes N → ℝ)) (hN : ∀ i, 0 < N i) (i : Fin 2) (u : Fin (n + 4) → Periodic.Grid N → ℝ)
    (hu : ∀ j p a, u j (Function.update p i a) = u j p) (k : RModes N) (hk : waves N i k ≠ 0) : settle q n mask u k = 0 := by
  have h1 : ∀ k, waves N i k ≠ 0 → maskArr mask (fwdD (chebWall q n) (rspace N N) u) k = 0 := fun k hk => by
    have : fwdD (chebWall q n) (rspace N N) u k = 0 := by
      unfold fwdD
      rw [show (fun j => (rspace N N).forward (u j) k) = 0 from funext fun j => forward_const hN i _ (hu j) k hk, map_zero]
    cases mask
    · exact this
    · simp [maskArr, this]
  unfold settle fwdD
  refine Eq.trans (congrArg _ ?_) (map_zero _)
  funext j
  refine forward_const hN i _ (fun p a => ?_) k hk
  have h2 : ∀ k, waves N i k ≠ 0 →
      ((chebWall q n).fD (maskArr mask (fwdD (chebWall q n) (rspace N N) u) k)).eval ((chebWall q n).x j : ℂ) = 0 := fun k hk => by
    rw [h1 k hk]; simp
  exact backward_const i _ h2 p a

theorem matC_star {a b : ℕ} (A : Matrix (Fin a) (Fin b) ℝ) (v : Fin b → ℂ) : matC A (fun j => (starRingEnd ℂ) (v j)) = fun i => (starRingEnd ℂ) (matC A v i) := by
  funext i
  simp [matC, Matrix.toLin'_apply, Matrix.mulVec, dotProduct]

/-- The coefficients of a real array at opposite modes are conjugate. -/
theorem fwdD_herm (q : Quad) (u : Fin (n + 4) → Periodic.Grid N → ℝ) (k k' : RModes N) (h : ∀ i, waves N i k' = -waves N i k) :
    fwdD (chebWall q n) (rspace N N) u k' = fun j => (starRingEnd ℂ) (fwdD (chebWall q n) (rspace N N) u k j) := by
  unfold fwdD
  simp only [rspace_forward_conj N N _ k k' h]
  show matC _ _ = fun j => (starRingEnd ℂ) (matC _ _ j)
  rw [← matC_star]
  congr 1
  funext i
  simp [LinearMap.sum_apply]

/-- C85: the start of the demo is the transform of the array with the Nyquist modes removed; going to the grid and back once more does not change it. -/
theorem C85_smoothed (q : Quad) (hN : ∀ i, 0 < N i) (u : Fin (n + 4) → Periodic.Grid N → ℝ) (k : RModes N) :
    settle q n (some fun k => if nyquistMask N k then 1 else 0) u k =
      if nyquistMask N k then fwdD (chebWall q n) (rspace N N) u k else 0 := by
  have hm : maskArr (some fun k => if nyquistMask N k then 1 else 0) (fwdD (chebWall q n) (rspace N N) u) =
      fun k => if nyquistMask N k then fwdD (chebWall q n) (rspace N N) u k else 0 := by
    funext k
    simp only [maskArr]
    split_ifs <;> simp
  unfold settle
  rw [hm]
  refine congrFun (fwdD_synth (chebWall q n) (C73_cheb_forward q n) hN (fun _ => le_rfl)
    (fun k => if nyquistMask N k then fwdD (chebWall q n) (rspace N N) u k else 0) (fun k hk => by simp [hk]) fun k k' h => ?_) k
  have hmk : nyquistMask N k' = nyquistMask N k := by
    simp only [nyquistMask, h]
    congr 1
    apply propext
    refine forall_congr' fun i => ?_
    constructor <;> rintro ⟨h1, h2⟩ <;> constructor <;> intro h <;> first | (apply h1; linarith) | (apply h2; linarith)
  beta_reduce
  rw [hmk]
  by_cases hk : nyquistMask N k = true
  · rw [if_pos hk, if_pos hk, fwdD_herm q u k k' h]
    show expandC phi _ = (expandC phi _).map _
    rw [expandC_apply, expandC_apply, Polynomial.map_sum]
    refine Finset.sum_congr rfl fun j _ => ?_
    rw [Polynomial.map_smul, Polynomial.map_map]
    congr 2
    ext x
    simp
  · rw [if_neg hk, if_neg hk, map_zero, Polynomial.map_zero]

/-- C85: whatever the random numbers, the demo starts from an exactly divergence-free velocity, with `g` its wall-normal vorticity. -/
theorem C85_start (q : Quad) (c : Ctx (RModes N) (Fin n → ℂ) (Fin (n + 2) → ℂ)) (hN : ∀ i, 0 < N i) (hG : c.G = waveGrid N L hN)
    (Retau : ℝ) (dev : Fin (n + 4) → Periodic.Grid N → ℝ) :
    Solenoidal c (mkmVel q n L c.nu Retau hN c.mask dev) (vorticity c.G (mkmVel q n L c.nu Retau hN c.mask dev)) := by
  have hv : ∀ k, waves N 0 k ≠ 0 → (mkmVel q n L c.nu Retau hN c.mask dev).v k = 0 := fun k hk =>
    settle_const q _ hN 0 _ (fun j p a => by simp [mkmU1]) k hk
  have hw : ∀ k, waves N 1 k ≠ 0 → (mkmVel q n L c.nu Retau hN c.mask dev).w k = 0 := fun k hk =>
    settle_const q _ hN 1 _ (fun j p a => by simp [mkmU2]) k hk
  refine ⟨fun k => ?_, fun k _ => rfl, rfl⟩
  have e0 : (Complex.I * (c.G.K1 k : ℂ)) • (mkmVel q n L c.nu Retau hN c.mask dev).v k = 0 := by
    by_cases h : waves N 0 k = 0
    · rw [hG]; simp [waveGrid, scaledWaves, h]
    · rw [hv k h, smul_zero]
  have e1 : (Complex.I * (c.G.K2 k : ℂ)) • (mkmVel q n L c.nu Retau hN c.mask dev).w k = 0 := by
    by_cases h : waves N 1 k = 0
    · rw [hG]; simp [waveGrid, scaledWaves, h]
    · rw [hw k h, smul_zero]
  rw [Spec.Channel.Continuity, e0, e1, add_zero, map_zero, add_zero]
  exact map_zero _

/-- C85: the states with which KMM and KMMRK3 start: the velocity above with its wall-normal vorticity. -/
theorem C85_states (q : Quad) (c : Ctx (RModes N) (Fin n → ℂ) (Fin (n + 2) → ℂ)) (hN : ∀ i, 0 < N i) (hG : c.G = waveGrid N L hN)
    (Retau : ℝ) (dev : Fin (n + 4) → Periodic.Grid N → ℝ) (s : St (RModes N) (Fin n → ℂ) (Fin (n + 2) → ℂ))
    (s3 : St3 (RModes N) (Fin n → ℂ) (Fin (n + 2) → ℂ)) :
    let a := initMKM c q L Retau hN dev s
    let b := initMKM3 c q L Retau hN dev s3
    Solenoidal c a.U a.g ∧ Solenoidal c b.U b.g ∧ b.U = a.U ∧ b.g = a.g :=
  ⟨C85_start q c hN hG Retau dev, C85_start q c hN hG Retau dev, rfl, rfl⟩

/-- C85: the first step is taken with the convection of the initial state (Euler), not with an undefined older one. -/
theorem C85_first_step (q : Quad) (c : Ctx (RModes N) (Fin n → ℂ) (Fin (n + 2) → ℂ)) (hN : ∀ i, 0 < N i)
    (Retau : ℝ) (dev : Fin (n + 4) → Periodic.Grid N → ℝ) (s : St (RModes N) (Fin n → ℂ) (Fin (n + 2) → ℂ)) :
    let s0 := initMKM c q L Retau hN dev s
    s0.U0 = s0.U ∧ (computeRHS c s0).1.H0 = maskVec c.mask (c.conv s0.U s0.g) := by
  intro s0
  refine ⟨rfl, ?_⟩
  show maskVec c.mask (assembleAB (c.conv s0.U s0.g) (c.conv s0.U s0.g)) = _
  congr 1
  have h : ∀ a : Fin (n + 2) → ℂ, (1.5 : ℂ) • a - (0.5 : ℂ) • a = a := fun a => by
    rw [← sub_smul]; norm_num
  simp only [assembleAB, h]

/-! ## Whole runs -/

theorem meanOnly_update (q : Quad) (hN : ∀ i, 0 < N i) {R : Type*} [Fintype R]
    (blocks : R → Utilities.Block (n + 4) (Periodic.Grid N)) (F : ℝ) :
    MeanOnly (waveGrid N L hN).zero (updateMKM q n 2 L (waveGrid N L hN).zero blocks F) := fun U =>
  ⟨rfl, fun k hk => ⟨by simp only [updateMKM, fluxControl]; rw [Function.update_of_ne hk], rfl⟩⟩

/-- What the run must keep: the velocity is divergence free and zero at the walls. -/
def GoodFlow (q : Quad) (n : ℕ) (L : Fin 2 → ℝ) (U : Vel (RModes N) (Fin n → ℂ) (Fin (n + 2) → ℂ)) : Prop :=
  DivergenceFree (fieldU (chebWall q n) L U) (fieldV (chebWall q n) L U) (fieldW (chebWall q n) L U) ∧
  NoSlip (fieldU (chebWall q n) L U) (fieldV (chebWall q n) L U) (fieldW (chebWall q n) L U)

/-- C85 for KMM: from the start of the demo on, at every time the velocity is divergence free at every point and zero at the walls, and
after every step its flux is exactly the prescribed one. -/
theorem C85_kmm (q : Quad) (hq : q = .GC ∨ n % 2 = 0) (hN : ∀ i, 0 < N i) (hL : ∀ i, 0 < L i)
    (c : Ctx (RModes N) (Fin n → ℂ) (Fin (n + 2) → ℂ)) (hM : c.M = chebMats q n) (hG : c.G = waveGrid N L hN)
    (la : LA (RModes N) (Fin n → ℂ) (Fin (n + 2) → ℂ)) (htdma : ∀ b, c.M.BDD (la.tdmaD b) = b)
    {R : Type*} [Fintype R] (blocks : R → Utilities.Block (n + 4) (Periodic.Grid N)) (hb : Utilities.Tiles blocks) (F Retau : ℝ)
    (dev : Fin (n + 4) → Periodic.Grid N → ℝ) (s : St (RModes N) (Fin n → ℂ) (Fin (n + 2) → ℂ)) (m : ℕ) :
    let run := fun m => (tick c la (updateMKM q n 2 L c.G.zero blocks F))^[m] (initMKM c q L Retau hN dev s)
    GoodFlow q n L (run m).U ∧ (0 < m → flux L (fieldV (chebWall q n) L (run m).U) = F) := by
  intro run
  have hL' : ∀ i, L i ≠ 0 := fun i => (hL i).ne'
  cases m with
  | zero =>
    exact ⟨⟨(solenoidal_field q n hN hL' c hM hG _ _ (C85_start q c hN hG Retau dev)).1, noSlip q n _⟩, fun h => absurd h (lt_irrefl _)⟩
  | succ m =>
    have hu : MeanOnly c.G.zero (updateMKM q n 2 L c.G.zero blocks F) := by rw [hG]; exact meanOnly_update q hN blocks F
    obtain ⟨h1, h2, -⟩ := C77_kmm q n hN hL' c hM hG _ hu la htdma (initMKM c q L Retau hN dev s) m
    refine ⟨⟨h1, h2⟩, fun _ => ?_⟩
    have e : run (m + 1) = tick c la (updateMKM q n 2 L c.G.zero blocks F) (run m) := Function.iterate_succ_apply' _ _ _
    rw [e, fieldV]
    simp only [tick, endOfTstep, advance, updateMKM, hG]
    exact C85_flux q hq hN hL blocks hb F _

/-- C85 for KMMRK3. -/
theorem C85_kmmrk3 (q : Quad) (hq : q = .GC ∨ n % 2 = 0) (hN : ∀ i, 0 < N i) (hL : ∀ i, 0 < L i)
    (c : Ctx (RModes N) (Fin n → ℂ) (Fin (n + 2) → ℂ)) (hM : c.M = chebMats q n) (hG : c.G = waveGrid N L hN)
    (la : Fin 3 → LA (RModes N) (Fin n → ℂ) (Fin (n + 2) → ℂ)) (htdma : ∀ b, c.M.BDD ((la 2).tdmaD b) = b)
    {R : Type*} [Fintype R] (blocks : R → Utilities.Block (n + 4) (Periodic.Grid N)) (hb : Utilities.Tiles blocks) (F Retau : ℝ)
    (dev : Fin (n + 4) → Periodic.Grid N → ℝ) (s : St3 (RModes N) (Fin n → ℂ) (Fin (n + 2) → ℂ)) (m : ℕ) :
    let run := fun m => (tick3 c la (updateMKM q n 2 L c.G.zero blocks F))^[m] (initMKM3 c q L Retau hN dev s)
    GoodFlow q n L (run m).U ∧ (0 < m → flux L (fieldV (chebWall q n) L (run m).U) = F) := by
  intro run
  have hL' : ∀ i, L i ≠ 0 := fun i => (hL i).ne'
  cases m with
  | zero =>
    exact ⟨⟨(solenoidal_field q n hN hL' c hM hG _ _ (C85_start q c hN hG Retau dev)).1, noSlip q n _⟩, fun h => absurd h (lt_irrefl _)⟩
  | succ m =>
    have hu : MeanOnly c.G.zero (updateMKM q n 2 L c.G.zero blocks F) := by rw [hG]; exact meanOnly_update q hN blocks F
    obtain ⟨h1, h2, -⟩ := C77_kmmrk3 q n hN hL' c hM hG _ hu la htdma (initMKM3 c q L Retau hN dev s) m
    refine ⟨⟨h1, h2⟩, fun _ => ?_⟩
    have e : run (m + 1) = tick3 c la (updateMKM q n 2 L c.G.zero blocks F) (run m) := Function.iterate_succ_apply' _ _ _
    rw [e, fieldV]
    simp only [tick3, updateMKM, hG]
    exact C85_flux q hq hN hL blocks hb F _

/-- C85 for Coupled, whatever its linear solver, convection and start: the flux after every step. -/
theorem C85_coupled (q : Quad) (hq : q = .GC ∨ n % 2 = 0) (hN : ∀ i, 0 < N i) (hL : ∀ i, 0 < L i) {P R' : Type*} [AddCommGroup P] [Module ℂ P]
    [AddCommGroup R'] [Module ℂ R'] (c : Coupled.Ctx (RModes N) (Fin (n + 2) → ℂ) P R') (hG : c.G = waveGrid N L hN)
    (solve : Vec (RModes N) (Fin (n + 2) → ℂ) → Coupled.Vel (RModes N) (Fin (n + 2) → ℂ) × (RModes N → P))
    {R : Type*} [Fintype R] (blocks : R → Utilities.Block (n + 4) (Periodic.Grid N)) (hb : Utilities.Tiles blocks) (F : ℝ)
    (s : Coupled.St (RModes N) (Fin (n + 2) → ℂ) P) (m : ℕ) :
    let run := fun m => (Coupled.tick c solve (updateMKMC q n 2 L c.G.zero blocks F))^[m] s
    flux L (fieldOf N L fun k => (chebWall q n).fD ((run (m + 1)).U.c1 k)) = F := by
  intro run
  have e : run (m + 1) = Coupled.tick c solve (updateMKMC q n 2 L c.G.zero blocks F) (run m) := Function.iterate_succ_apply' _ _ _
  rw [e]
  simp only [Coupled.tick, Coupled.endOfTstep, updateMKMC, hG]
  exact C85_flux q hq hN hL blocks hb F _

/-! ## Concrete cases -/

/-- One rank holding everything. -/
example : Utilities.Tiles (fun _ : Unit => (⟨Finset.univ, Finset.univ⟩ : Utilities.Block (12 + 4) (Periodic.Grid ![16, 8]))) :=
  fun _ _ => ⟨(), by simp, fun _ _ => rfl⟩

/-- The flux of the demo is prescribed for the box of the demo, here with 16 wall-normal points. -/
example (v : RModes ![16, 8] → Fin (12 + 2) → ℂ) :
    flux ![2 * Real.pi, Real.pi] (fieldOf ![16, 8] ![2 * Real.pi, Real.pi] fun k => (chebWall .GC 12).fD (fluxControl .GC 12 2 ![2 * Real.pi, Real.pi]
      (waveGrid ![16, 8] ![2 * Real.pi, Real.pi] (by intro i; fin_cases i <;> norm_num)).zero
      (fun _ : Unit => ⟨Finset.univ, Finset.univ⟩) 618.97 v k)) = 618.97 :=
  C85_flux .GC (Or.inl rfl) _ (by intro i; fin_cases i <;> simp [Real.pi_pos]) _ (fun _ _ => ⟨(), by simp, fun _ _ => rfl⟩) _ v

end SpectralDNS.Channel

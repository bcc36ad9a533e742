import Verif.Lemmas.RetainedWall
import Verif.Model.CoupledCheb

/-! Restriction of the arrays of the coupled channel solvers to some of the wavenumber pairs. -/

namespace SpectralDNS.Coupled

open Channel Polynomial Periodic

section
variable {κ κ' D C Q X X' : Type*} [AddCommGroup D] [Module ℂ D] [AddCommGroup C] [Module ℂ C] {T : Space κ X} {T' : Space κ' X'} {j : κ' → κ}

theorem retains_coupled (R : Retains T T' j) (W : Wall D D C Q) (G : Grid κ) (z : κ') (U : Channel.Vel κ D D) (kind : ConvKind) :
    convectionCoupled kind W T' (G.pull j z) (U.pull j) = (convectionCoupled kind W T G U).pull j := by
  have h0 : (⟨0, 0, 0⟩ : Vec κ' D) = (⟨0, 0, 0⟩ : Vec κ D).pull j := rfl
  cases kind
  · simp only [convectionCoupled, R.standard]
    rfl
  · simp only [convectionCoupled]
    rw [h0, R.divergence]
    rfl
  · simp only [convectionCoupled, R.standard, R.divergence]
    rfl
  · refine follows_cross R W (fun i => follows_velocity U W i) fun i => ?_
    match i with
    | 0 => exact follows_D W fun k => W.projD ((Complex.I * G.K1 k) • W.fD (U.w k) - (Complex.I * G.K2 k) • W.fD (U.v k))
    | 1 => exact follows_C W fun k => W.projC ((Complex.I * G.K2 k) • W.fD (U.u k) - derivative (W.fD (U.w k)))
    | 2 => exact follows_C W fun k => W.projC (derivative (W.fD (U.v k)) - (Complex.I * G.K1 k) • W.fD (U.u k))

end

variable {κ κ' D P R : Type*} [DecidableEq κ] [DecidableEq κ'] [AddCommGroup D] [Module ℂ D] [AddCommGroup P] [Module ℂ P] [AddCommGroup R] [Module ℂ R]

/-- The entries at the wavenumber pairs `j k`. -/
def St.pull (j : κ' → κ) (s : St κ D P) : St κ' D P :=
  ⟨s.U.pull j, fun k => s.pr (j k), s.H.pull j, s.H0.pull j, s.H1.pull j, s.U0.pull j, fun k => s.pr0 (j k)⟩
@[inherit_doc St.pull] def St3.pull (j : κ' → κ) (s : St3 κ D P) : St3 κ' D P := ⟨s.U.pull j, fun k => s.pr (j k), s.H.pull j, s.hv0.pull j⟩

/-- `c'` is `c` for the wavenumber pairs `j k`. -/
structure Below (c : Ctx κ D P R) (c' : Ctx κ' D P R) (j : κ' → κ) : Prop where
  nu : c'.nu = c.nu
  dt : c'.dt = c.dt
  G : c'.G = c.G.pull j c'.G.zero
  M : c'.M = c.M
  mask : ∀ H : Vec κ D, maskVec c'.mask (H.pull j) = (maskVec c.mask H).pull j
  conv : ∀ U, c'.conv (Vec.pull j U) = (c.conv U).pull j
  Sk1 : c'.Sk1 = fun k => c.Sk1 (j k)
  zero : j c'.G.zero = c.G.zero
  inj : Function.Injective j

/-- The solves of `c'` are those of `c` at the pairs `j k`. -/
def SolvesBelow (j : κ' → κ) (solve : Vec κ D → Vel κ D × (κ → P)) (solve' : Vec κ' D → Vel κ' D × (κ' → P)) : Prop :=
  ∀ rhs : Vec κ D, solve' (rhs.pull j) = ((solve rhs).1.pull j, fun k => (solve rhs).2 (j k))

variable {c : Ctx κ D P R} {c' : Ctx κ' D P R} {j : κ' → κ} (S : Below c c' j)
include S

theorem Below.Ksq (k : κ') : c'.G.Ksq k = c.G.Ksq (j k) := by rw [S.G]; rfl

open Classical in
theorem Below.solves {alfa beta : ℝ} {R' : Type*} [AddCommGroup R'] [Module ℂ R'] {rest : R →ₗ[ℂ] R'} {pin0 pin1 : P →ₗ[ℂ] ℂ} {solve solve'}
    (h : Solves c alfa beta rest pin0 pin1 solve) (h' : Solves c' alfa beta rest pin0 pin1 solve') (u : ∃! f, Solves c' alfa beta rest pin0 pin1 f) : SolvesBelow j solve solve' := by
  intro rhs
  have h1 : ∀ k, c'.G.K1 k = c.G.K1 (j k) := fun k => by rw [S.G]; rfl
  have h2 : ∀ k, c'.G.K2 k = c.G.K2 (j k) := fun k => by rw [S.G]; rfl
  let f : Vec κ' D → Vel κ' D × (κ' → P) := fun b => if b = rhs.pull j then ((solve rhs).1.pull j, fun k => (solve rhs).2 (j k)) else solve' b
  have e : f (rhs.pull j) = ((solve rhs).1.pull j, fun k => (solve rhs).2 (j k)) := if_pos rfl
  have e' : ∀ b, b ≠ rhs.pull j → f b = solve' b := fun b hb => if_neg hb
  have hf : Solves c' alfa beta rest pin0 pin1 f := by
    constructor
    · intro b k
      by_cases hb : b = rhs.pull j
      · rw [hb, e, S.M, S.Ksq]; exact h.mom0 rhs (j k)
      · rw [e' b hb]; exact h'.mom0 b k
    · intro b k
      by_cases hb : b = rhs.pull j
      · rw [hb, e, S.M, S.Ksq, h1]; exact h.mom1 rhs (j k)
      · rw [e' b hb]; exact h'.mom1 b k
    · intro b k
      by_cases hb : b = rhs.pull j
      · rw [hb, e, S.M, S.Ksq, h2]; exact h.mom2 rhs (j k)
      · rw [e' b hb]; exact h'.mom2 b k
    · intro b k hk
      by_cases hb : b = rhs.pull j
      · rw [hb, e, S.M, h1, h2]; exact h.cont rhs (j k) fun hz => hk (S.inj (hz.trans S.zero.symm))
      · rw [e' b hb]; exact h'.cont b k hk
    · intro b
      by_cases hb : b = rhs.pull j
      · rw [hb, e, S.M]
        have := h.cont0 rhs
        rwa [← S.zero] at this
      · rw [e' b hb]; exact h'.cont0 b
    · intro b
      by_cases hb : b = rhs.pull j
      · rw [hb, e]
        have := h.pin0 rhs
        rwa [← S.zero] at this
      · rw [e' b hb]; exact h'.pin0 b
    · intro b
      by_cases hb : b = rhs.pull j
      · rw [hb, e]
        have := h.pin1 rhs
        rwa [← S.zero] at this
      · rw [e' b hb]; exact h'.pin1 b
  rw [← e, u.unique h' hf]

theorem Below.ab (alfa : ℝ) (k : κ') (v : D) : abMatvec c' alfa k v = abMatvec c alfa (j k) v := by
  simp only [abMatvec, S.M, S.Ksq]

theorem Below.rhs (s : St κ D P) : computeRHS c' (s.pull j) = ((computeRHS c s).1.pull j, (computeRHS c s).2.pull j) := by
  have hH : c'.conv (s.pull j).U = (c.conv s.U).pull j := S.conv s.U
  have hH0 : maskVec c'.mask (assembleAB ((c.conv s.U).pull j) (s.pull j).H1) = (maskVec c.mask (assembleAB (c.conv s.U) s.H1)).pull j :=
    S.mask (assembleAB (c.conv s.U) s.H1)
  unfold computeRHS
  simp only [hH, hH0, S.ab, S.nu, S.dt, S.M, S.Sk1]
  rfl

theorem Below.update {V : Type*} (a : κ → V) (x : V) :
    Function.update (fun k => a (j k)) c'.G.zero x = fun k => Function.update a c.G.zero x (j k) := by
  funext k
  by_cases hk : k = c'.G.zero
  · rw [hk, Function.update_self, S.zero, Function.update_self]
  · rw [Function.update_of_ne hk, Function.update_of_ne fun e => hk (S.inj (e.trans S.zero.symm))]

theorem Below.tick {solve solve'} (h : SolvesBelow j solve solve') (s : St κ D P) : tick c' solve' id (s.pull j) = (tick c solve id s).pull j := by
  have e : integrate c' solve' (s.pull j) = (integrate c solve s).pull j := by
    unfold integrate
    have h2 := h (computeRHS c s).2
    simp only [S.rhs, h2]
    simp only [Vec.pull, S.update]
    rfl
  unfold Coupled.tick endOfTstep
  rw [e]
  rfl

theorem Below.rhs3 (rk : Fin 3) (s : St3 κ D P) : computeRHS3 c' rk (s.pull j) = ((computeRHS3 c rk s).1.pull j, (computeRHS3 c rk s).2.pull j) := by
  have hH : maskVec c'.mask (c'.conv (s.pull j).U) = (maskVec c.mask (c.conv s.U)).pull j := by
    rw [← S.mask, ← S.conv]
    rfl
  unfold computeRHS3
  simp only [hH, S.ab, S.nu, S.dt, S.M, S.Sk1]
  rfl

theorem Below.substep {solve solve'} (h : ∀ rk, SolvesBelow j (solve rk) (solve' rk)) (rk : Fin 3) (s : St3 κ D P) :
    substep c' solve' rk (s.pull j) = (substep c solve rk s).pull j := by
  unfold Coupled.substep
  have h2 := h rk (computeRHS3 c rk s).2
  simp only [S.rhs3, h2]
  rfl

theorem Below.tick3 {solve solve'} (h : ∀ rk, SolvesBelow j (solve rk) (solve' rk)) (s : St3 κ D P) :
    tick3 c' solve' id (s.pull j) = (tick3 c solve id s).pull j := by
  unfold Coupled.tick3 integrate3
  rw [S.substep h, S.substep h, S.substep h]
  rfl

end SpectralDNS.Coupled

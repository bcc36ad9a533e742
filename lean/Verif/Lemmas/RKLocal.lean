import Verif.Lemmas.Jet

/-!
# Local error of explicit Runge-Kutta methods for quadratic right-hand sides

For `f u = c0 + A u + Q u u` the expansions in the step size of the numerical step and of the exact solution are sums
over the same rooted trees, with coefficients `Σ b_i Φ_i(τ)` and `1/γ(τ)`.
-/

namespace SpectralDNS

open Finset Spec

variable {P : Type*} {E : Type*} [NormedAddCommGroup E] [NormedSpace ℝ E]

/-- `(g, e)` is a sum of pairs `((Σ_j a_ij Φ_j(τ)) x, x / γ(τ))` over trees of order `m`. -/
inductive RepV (s : ℕ) (a : ℕ → ℕ → ℝ) (m : ℕ) : (ℕ → E) → E → Prop
  | zero : RepV s a m (fun _ => 0) 0
  | tree (t : Tree) (x : E) (h : t.order = m) :
      RepV s a m (fun i => (∑ j ∈ range s, a i j * t.elem s a j) • x) ((1 / (t.dens : ℝ)) • x)
  | add {g g' e e'} (h : RepV s a m g e) (h' : RepV s a m g' e') : RepV s a m (fun i => g i + g' i) (e + e')

/-- `(g, e)` is a sum of pairs `(Φ_i(τ) x, (m+1) x / γ(τ))` over trees of order `m + 1`. -/
inductive RepK (s : ℕ) (a : ℕ → ℕ → ℝ) (m : ℕ) : (ℕ → E) → E → Prop
  | zero : RepK s a m (fun _ => 0) 0
  | tree (t : Tree) (x : E) (h : t.order = m + 1) :
      RepK s a m (fun i => t.elem s a i • x) ((((m : ℝ) + 1) / (t.dens : ℝ)) • x)
  | add {g g' e e'} (h : RepK s a m g e) (h' : RepK s a m g' e') : RepK s a m (fun i => g i + g' i) (e + e')

variable {s : ℕ} {a : ℕ → ℕ → ℝ}

theorem RepK.congr {m : ℕ} {g g' : ℕ → E} {e e' : E} (h : RepK s a m g e) (hg : ∀ i, g i = g' i) (he : e = e') :
    RepK s a m g' e' := by
  have : g = g' := _root_.funext hg
  rw [← this, ← he]; exact h

theorem RepV.congr {m : ℕ} {g g' : ℕ → E} {e e' : E} (h : RepV s a m g e) (hg : ∀ i, g i = g' i) (he : e = e') :
    RepV s a m g' e' := by
  have : g = g' := _root_.funext hg
  rw [← this, ← he]; exact h

theorem RepK.toV {m : ℕ} {g : ℕ → E} {e : E} (h : RepK s a m g e) :
    RepV s a (m + 1) (fun i => ∑ j ∈ range s, a i j • g j) ((1 / ((m : ℝ) + 1)) • e) := by
  induction h with
  | zero => exact RepV.zero.congr (fun i => by simp) (by simp)
  | tree t x h =>
    refine (RepV.tree t x h).congr (fun i => ?_) ?_
    · rw [sum_smul]; exact sum_congr rfl fun j _ => by rw [smul_smul]
    · rw [smul_smul]
      congr 1
      have : ((m : ℝ) + 1) ≠ 0 := by positivity
      field_simp
  | add _ _ ih ih' =>
    refine (ih.add ih').congr (fun i => ?_) (by rw [smul_add])
    rw [← sum_add_distrib]; exact sum_congr rfl fun j _ => by rw [smul_add]

theorem order_pos (t : Tree) : 0 < t.order := by
  induction t with
  | leaf => exact Nat.one_pos
  | graft t s ih _ => simp only [Tree.order]; omega

theorem densAux_pos (t : Tree) : 0 < t.densAux.1 ∧ 0 < t.densAux.2 := by
  induction t with
  | leaf => exact ⟨Nat.one_pos, Nat.one_pos⟩
  | graft t s iht ihs =>
    have h : 0 < t.densAux.2 * s.densAux.1 := Nat.mul_pos iht.2 ihs.1
    refine ⟨?_, h⟩
    simp only [Tree.densAux]
    exact Nat.mul_pos (by have := order_pos t; omega) h

theorem RepV.lin {m : ℕ} {g : ℕ → E} {e : E} (h : RepV s a m g e) (B : E →L[ℝ] E) :
    RepK s a m (fun i => B (g i)) (B e) := by
  induction h with
  | zero => exact RepK.zero.congr (fun i => by simp) (by simp)
  | tree t x h =>
    refine (RepK.tree (.graft .leaf t) (B x) (by simp [Tree.order, h, add_comm])).congr (fun i => ?_) ?_
    · rw [map_smul]; simp only [Tree.elem, one_mul]
    · rw [map_smul]
      congr 1
      have hd : (t.densAux.1 : ℝ) ≠ 0 := by exact_mod_cast (densAux_pos t).1.ne'
      have : ((m : ℝ) + 1) ≠ 0 := by positivity
      simp only [Tree.dens, Tree.densAux, Tree.order, one_mul, h]
      push_cast
      rw [add_comm (1 : ℝ)]
      field_simp
  | add _ _ ih ih' => exact (ih.add ih').congr (fun i => by rw [map_add]) (by rw [map_add])

theorem RepV.bil {m n : ℕ} {g g' : ℕ → E} {e e' : E} (h : RepV s a m g e) (h' : RepV s a n g' e')
    (Q : E →L[ℝ] E →L[ℝ] E) : RepK s a (m + n) (fun i => Q (g i) (g' i)) (Q e e') := by
  induction h with
  | zero => exact RepK.zero.congr (fun i => by simp) (by simp)
  | tree t x ht =>
    induction h' with
    | zero => exact RepK.zero.congr (fun i => by simp) (by simp)
    | tree t' x' ht' =>
      refine (RepK.tree (.graft (.graft .leaf t) t') (Q x x') (by simp only [Tree.order, ht, ht']; omega)).congr (fun i => ?_) ?_
      · simp only [map_smul, ContinuousLinearMap.smul_apply, smul_smul, Tree.elem, one_mul]
        rw [mul_comm]
      · simp only [map_smul, ContinuousLinearMap.smul_apply, smul_smul]
        congr 1
        have hd : (t.densAux.1 : ℝ) ≠ 0 := by exact_mod_cast (densAux_pos t).1.ne'
        have hd' : (t'.densAux.1 : ℝ) ≠ 0 := by exact_mod_cast (densAux_pos t').1.ne'
        have h0 : (1 + (m : ℝ) + n) ≠ 0 := by positivity
        simp only [Tree.dens, Tree.densAux, Tree.order, one_mul, ht, ht']
        push_cast
        rw [show (m : ℝ) + n + 1 = 1 + m + n by ring]
        field_simp
    | add _ _ ih ih' => exact (ih.add ih').congr (fun i => by rw [map_add]) (by rw [map_add])
  | add _ _ ih ih' =>
    exact (ih.add ih').congr (fun i => by rw [map_add, add_apply])
      (by rw [map_add, add_apply])

/-- The order conditions equate the numerical and the exact coefficient. -/
theorem RepK.order {p : ℕ} {b : ℕ → ℝ} (hb : HasOrder s a b p) {m : ℕ} (hm : m < p) {g : ℕ → E} {e : E} (h : RepK s a m g e) :
    ∑ i ∈ range s, b i • g i = (1 / ((m : ℝ) + 1)) • e := by
  induction h with
  | zero => simp
  | tree t x h =>
    have h1 := hb t (by omega)
    simp only [smul_smul]
    rw [← sum_smul]
    congr 1
    rw [Tree.weight] at h1
    rw [h1]
    have : ((m : ℝ) + 1) ≠ 0 := by positivity
    field_simp
  | add _ _ ih ih' => rw [smul_add, ← ih, ← ih', ← sum_add_distrib]; exact sum_congr rfl fun i _ => by rw [smul_add]

theorem RepK.sum {α : Type*} (S : Finset α) {m : ℕ} {g : α → ℕ → E} {e : α → E} (h : ∀ x ∈ S, RepK s a m (g x) (e x)) :
    RepK s a m (fun i => ∑ x ∈ S, g x i) (∑ x ∈ S, e x) := by
  classical
  induction S using Finset.induction_on with
  | empty => exact RepK.zero.congr (fun i => by simp) (by simp)
  | insert x S hx ih =>
    refine ((h x (mem_insert_self _ _)).add (ih fun y hy => h y (mem_insert_of_mem hy))).congr (fun i => ?_) ?_
    · rw [sum_insert hx]
    · rw [sum_insert hx]

/-! ### Coefficients -/

/-- Coefficients of `F0 + B v + Q v v`. -/
noncomputable def fieldJet (F0 : P → E) (B : P → E →L[ℝ] E) (Q : E →L[ℝ] E →L[ℝ] E) (v : P → ℕ → E) (p : P) (m : ℕ) : E :=
  constJet F0 p m + B p (v p m) + bilJet Q v v p m

/-- Coefficients of the increment of the exact solution (after `n` refinements). -/
noncomputable def exJet (F0 : P → E) (B : P → E →L[ℝ] E) (Q : E →L[ℝ] E →L[ℝ] E) : ℕ → P → ℕ → E
  | 0 => fun _ _ => 0
  | n + 1 => intJet (fieldJet F0 B Q (exJet F0 B Q n))

/-- Coefficients of the increments of the stages. -/
noncomputable def rkJet (s : ℕ) (a : ℕ → ℕ → ℝ) (F0 : P → E) (B : P → E →L[ℝ] E) (Q : E →L[ℝ] E →L[ℝ] E) : ℕ → ℕ → P → ℕ → E
  | 0 => fun _ _ _ => 0
  | n + 1 => fun i => shiftJet fun p m => ∑ j ∈ range s, a i j • fieldJet F0 B Q (rkJet s a F0 B Q n j) p m

theorem fieldJet_rep {F0 : P → E} {B : P → E →L[ℝ] E} {Q : E →L[ℝ] E →L[ℝ] E} {v : ℕ → P → ℕ → E} {w : P → ℕ → E} (p : P)
    (H : ∀ m, RepV s a m (fun i => v i p m) (w p m)) (m : ℕ) :
    RepK s a m (fun i => fieldJet F0 B Q (v i) p m) (fieldJet F0 B Q w p m) := by
  refine ((RepK.add (g := fun _ => constJet F0 p m) (e := constJet F0 p m) ?_ ((H m).lin (B p))).add
    (RepK.sum (antidiagonal m) (g := fun ij i => Q (v i p ij.1) (v i p ij.2)) (e := fun ij => Q (w p ij.1) (w p ij.2))
      fun ij hij => ?_)).congr (fun i => rfl) rfl
  · cases m with
    | zero => exact (RepK.tree .leaf (F0 p) rfl).congr (fun i => by simp [constJet, Tree.elem]) (by simp [constJet, Tree.dens, Tree.densAux])
    | succ m => exact RepK.zero
  · have := (H ij.1).bil (H ij.2) Q
    rwa [mem_antidiagonal.1 hij] at this

theorem jets_rep (F0 : P → E) (B : P → E →L[ℝ] E) (Q : E →L[ℝ] E →L[ℝ] E) (p : P) (n : ℕ) :
    ∀ m, RepV s a m (fun i => rkJet s a F0 B Q n i p m) (exJet F0 B Q n p m) := by
  induction n with
  | zero => exact fun m => RepV.zero
  | succ n ih =>
    intro m
    cases m with
    | zero => exact RepV.zero
    | succ m => exact (fieldJet_rep p ih m).toV

variable {D : P → ℝ → Prop} {n : ℕ}

theorem HasJet.field (hD : ∀ p h, D p h → 0 ≤ h ∧ h ≤ 1) {F0 : P → E} {B : P → E →L[ℝ] E} (Q : E →L[ℝ] E →L[ℝ] E) {M : ℝ}
    (hM : 0 ≤ M) (hF : ∀ p h, D p h → ‖F0 p‖ ≤ M) (hB : ∀ p h, D p h → ‖B p‖ ≤ M) {g : P → ℝ → E} {c : P → ℕ → E}
    (H : HasJet D n g c) : HasJet D n (fun p h => F0 p + B p (g p h) + Q (g p h) (g p h)) (fieldJet F0 B Q c) :=
  ((HasJet.const hD hM hF).add (H.lin hM hB)).add (H.bil hD Q H)

/-- The exact increments have the coefficients `exJet`. -/
theorem exact_jet (hD : ∀ p h, D p h → 0 ≤ h ∧ h ≤ 1) (hmono : ∀ p h h', D p h → 0 ≤ h' → h' ≤ h → D p h')
    {F0 : P → E} {B : P → E →L[ℝ] E} (Q : E →L[ℝ] E →L[ℝ] E) {M : ℝ} (hM : 0 ≤ M) (hF : ∀ p h, D p h → ‖F0 p‖ ≤ M)
    (hB : ∀ p h, D p h → ‖B p‖ ≤ M) {v : P → ℝ → E} (hv0 : ∀ p h, D p h → v p 0 = 0)
    (hv : ∀ p h, D p h → ∀ x ∈ Set.Icc 0 h,
      HasDerivWithinAt (v p) (F0 p + B p (v p x) + Q (v p x) (v p x)) (Set.Icc 0 h) x)
    (hb : ∀ p h, D p h → ‖v p h‖ ≤ M) (n : ℕ) : HasJet D n v (exJet F0 B Q n) := by
  induction n with
  | zero => exact ⟨M, hM, fun p h hp => ⟨by simpa using hb p h hp, fun m hm => absurd hm (by omega)⟩⟩
  | succ n ih => exact (ih.field hD Q hM hF hB).integral hD hmono hv0 hv

/-- The increments of the stages have the coefficients `rkJet`. -/
theorem rk_jet (hD : ∀ p h, D p h → 0 ≤ h ∧ h ≤ 1)
    {F0 : P → E} {B : P → E →L[ℝ] E} (Q : E →L[ℝ] E →L[ℝ] E) {M : ℝ} (hM : 0 ≤ M) (hF : ∀ p h, D p h → ‖F0 p‖ ≤ M)
    (hB : ∀ p h, D p h → ‖B p‖ ≤ M) {v : ℕ → P → ℝ → E}
    (hv : ∀ i p h, v i p h = h • ∑ j ∈ range s, a i j • (F0 p + B p (v j p h) + Q (v j p h) (v j p h)))
    (hb : ∀ i < s, ∀ p h, D p h → ‖v i p h‖ ≤ M) (n : ℕ) : ∀ i < s, HasJet D n (v i) (rkJet s a F0 B Q n i) := by
  induction n with
  | zero => exact fun i hi => ⟨M, hM, fun p h hp => ⟨by simpa using hb i hi p h hp, fun m hm => absurd hm (by omega)⟩⟩
  | succ n ih =>
    intro i _
    have h1 := (HasJet.sum (range s) fun j hj =>
      ((ih j (mem_range.1 hj)).field hD Q hM hF hB).const_smul (a i j)).shift hD
    have h2 : v i = fun p h => h • ∑ j ∈ range s, a i j • (F0 p + B p (v j p h) + Q (v j p h) (v j p h)) :=
      _root_.funext fun p => _root_.funext fun h => hv i p h
    rw [h2]
    exact h1

/-- Expansion of the numerical step and of the exact solution agree up to order `p`. -/
theorem local_error_jet (hD : ∀ p h, D p h → 0 ≤ h ∧ h ≤ 1) (hmono : ∀ p h h', D p h → 0 ≤ h' → h' ≤ h → D p h')
    {F0 : P → E} {B : P → E →L[ℝ] E} (Q : E →L[ℝ] E →L[ℝ] E) {M : ℝ} (hM : 0 ≤ M) (hF : ∀ p h, D p h → ‖F0 p‖ ≤ M)
    (hB : ∀ p h, D p h → ‖B p‖ ≤ M) {y : P → ℝ → E} (hy0 : ∀ p h, D p h → y p 0 = 0)
    (hy : ∀ p h, D p h → ∀ x ∈ Set.Icc 0 h,
      HasDerivWithinAt (y p) (F0 p + B p (y p x) + Q (y p x) (y p x)) (Set.Icc 0 h) x)
    (hyb : ∀ p h, D p h → ‖y p h‖ ≤ M) {v : ℕ → P → ℝ → E}
    (hv : ∀ i p h, v i p h = h • ∑ j ∈ range s, a i j • (F0 p + B p (v j p h) + Q (v j p h) (v j p h)))
    (hvb : ∀ i < s, ∀ p h, D p h → ‖v i p h‖ ≤ M) {b : ℕ → ℝ} {q : ℕ} (hq : HasOrder s a b q) :
    ∃ C, 0 ≤ C ∧ ∀ p h, D p h →
      ‖h • ∑ i ∈ range s, b i • (F0 p + B p (v i p h) + Q (v i p h) (v i p h)) - y p h‖ ≤ C * h ^ (q + 1) := by
  have h1 := exact_jet hD hmono Q hM hF hB hy0 hy hyb (q + 1)
  have h2 := (HasJet.sum (range s) fun j hj =>
    ((rk_jet hD Q hM hF hB hv hvb q j (mem_range.1 hj)).field hD Q hM hF hB).const_smul (b j)).shift hD
  refine h2.close h1 fun p m hm => ?_
  cases m with
  | zero => rfl
  | succ m => exact (fieldJet_rep p (jets_rep F0 B Q p q) m).order hq (by omega)

end SpectralDNS

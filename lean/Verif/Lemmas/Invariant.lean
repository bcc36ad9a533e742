import Verif.Lemmas.Integrators
import Mathlib.Algebra.Module.Submodule.Basic
import Mathlib.Algebra.Module.LinearMap.Defs

/-!
Generic theorems about all integrators at once: invariance of sets of states, and simulation along linear maps.
-/

namespace SpectralDNS

variable {V : Type*} [AddCommGroup V] [Module ℝ V]
variable {V' : Type*} [AddCommGroup V'] [Module ℝ V']

/-! ### Stage buffer -/

theorem stageAccum_mem (W : Submodule ℝ V) (S : Set V) (hS : ∀ u ∈ S, ∀ w ∈ W, u + w ∈ S) (T : Tableau) (dt : ℝ)
    (o : ℤ) (i : ℕ) (hi : i < T.s) (u0 : V) (hu : u0 ∈ S) (fY : ℕ → V) (hY : ∀ k, fY k ∈ W) :
    stageAccum T dt o i (Function.update fY (slot T.s i o) u0) (slot T.s i o) ∈ S := by
  rw [stageAccum_self T dt o i hi, Function.update_self]
  refine hS _ hu _ (W.sum_mem fun j hj => ?_)
  rw [Function.update_of_ne]
  · exact W.smul_mem _ (hY _)
  · intro h
    have := Finset.mem_range.1 hj
    have := slot_inj (by omega) hi h
    omega

theorem rkStage_mem (F : V → V → V) (W : Submodule ℝ V) (S : Set V) (hS : ∀ u ∈ S, ∀ w ∈ W, u + w ∈ S)
    (hF : ∀ r, ∀ u ∈ S, F r u ∈ W) (T : Tableau) (fsal : Bool) (tstep : ℕ) (dt : ℝ) (o : ℤ) (u0 : V) (hu : u0 ∈ S)
    (st : (ℕ → V) × V) (hst : ∀ k, st.1 k ∈ W) (i : ℕ) (hi : i < T.s) :
    ∀ k, (rkStage F T fsal tstep dt o u0 st i).1 k ∈ W := by
  intro k
  unfold rkStage
  split
  · simp only
    by_cases hk : k = slot T.s i o
    · subst hk
      rw [Function.update_self]
      exact hF _ _ (stageAccum_mem W S hS T dt o i hi u0 hu st.1 hst)
    · rw [Function.update_of_ne hk, stageAccum_of_ne T dt o i hi _ hk, Function.update_of_ne hk]
      exact hst k
  · exact hst k

theorem rkStages_mem (F : V → V → V) (W : Submodule ℝ V) (S : Set V) (hS : ∀ u ∈ S, ∀ w ∈ W, u + w ∈ S)
    (hF : ∀ r, ∀ u ∈ S, F r u ∈ W) (T : Tableau) (fsal : Bool) (tstep : ℕ) (dt : ℝ) (o : ℤ) (u0 : V) (hu : u0 ∈ S)
    (st : (ℕ → V) × V) (hst : ∀ k, st.1 k ∈ W) :
    ∀ k, (rkStages F T fsal tstep dt o u0 st).1 k ∈ W := by
  have key : ∀ m ≤ T.s, ∀ k, ((List.range m).foldl (rkStage F T fsal tstep dt o u0) st).1 k ∈ W := by
    intro m
    induction m with
    | zero => intro _; simpa using hst
    | succ m ih =>
      intro hm
      rw [List.range_succ, List.foldl_append]
      exact rkStage_mem F W S hS hF T fsal tstep dt o u0 hu _ (ih (by omega)) m (by omega)
  exact key T.s le_rfl

theorem rkNew_mem (W : Submodule ℝ V) (S : Set V) (hS : ∀ u ∈ S, ∀ w ∈ W, u + w ∈ S) (T : Tableau) (dt : ℝ) (o : ℤ)
    (u0 : V) (hu : u0 ∈ S) (fY : ℕ → V) (hY : ∀ k, fY k ∈ W) : rkNew T dt o u0 fY ∈ S := by
  unfold rkNew
  have key : ∀ (l : List ℕ) (x : V), x ∈ S →
      l.foldl (fun r j => r + (dt * T.b j) • fY (slot T.s j o)) x ∈ S := by
    intro l
    induction l with
    | nil => intro x hx; exact hx
    | cons a l ih => intro x hx; exact ih _ (hS _ hx _ (W.smul_mem _ (hY _)))
  exact key _ _ (hS _ hu _ (W.smul_mem _ (hY _)))

theorem adaptiveLoop_mem (F : V → V → V) (W : Submodule ℝ V) (S : Set V) (hS : ∀ u ∈ S, ∀ w ∈ W, u + w ∈ S)
    (hF : ∀ r, ∀ u ∈ S, F r u ∈ W) (T : Tableau) (p : ℕ) (fsal adaptive : Bool) (est : V → V → V → PyF)
    (tstep fuel : ℕ) : ∀ (facmax dt : ℝ) (st : RKArrays V) (rej : List ℝ) (res : RKResult V),
      st.u0 ∈ S → (∀ k, st.fY k ∈ W) →
      adaptiveLoop F T p fsal adaptive est tstep fuel facmax dt st rej = some res →
      res.arrays.u0 ∈ S ∧ ∀ k, res.arrays.fY k ∈ W := by
  induction fuel with
  | zero => intro _ _ _ _ _ _ _ h; simp [adaptiveLoop] at h
  | succ n ih =>
    intro facmax dt st rej res hu hY h
    have h1 : ∀ k, (rkTrial F T fsal est tstep dt st).fY k ∈ W :=
      rkStages_mem F W S hS hF T fsal tstep dt _ st.u0 hu (st.fY, st.rhs) hY
    have h2 : (rkTrial F T fsal est tstep dt st).new ∈ S := rkNew_mem W S hS T dt _ st.u0 hu _ h1
    simp only [adaptiveLoop] at h
    by_cases ha : adaptive = true
    · rw [if_pos ha] at h
      by_cases hg : PyF.Gt (rkTrial F T fsal est tstep dt st).est (.fin 1)
      · rw [if_pos hg] at h
        exact ih _ _ ⟨st.u0, (rkTrial F T fsal est tstep dt st).fY, _, _⟩ _ _ hu h1 h
      · rw [if_neg hg] at h
        simp only [Option.some.injEq] at h
        subst h
        exact ⟨h2, h1⟩
    · rw [if_neg ha] at h
      simp only [Option.some.injEq] at h
      subst h
      exact ⟨h2, h1⟩

/-! ### All methods -/

/-- What must hold of the closure arrays: the state is in `S`, everything that is a derivative is in `W`. -/
structure ClosureIn (S : Set V) (W : Submodule ℝ V) (tstep : ℕ) (c : Closure V) : Prop where
  u0 : c.u0 ∈ S
  u1 : tstep = 0 ∨ c.u1 ∈ W
  fY : ∀ k, c.fY k ∈ W

/-- If right-hand sides of states in `S` lie in `W` and `S + W ⊆ S` then every integrator keeps the state in `S`. -/
theorem integrate_mem (F : V → V → V) (W : Submodule ℝ V) (S : Set V) (hS : ∀ u ∈ S, ∀ w ∈ W, u + w ∈ S)
    (hF : ∀ r, ∀ u ∈ S, F r u ∈ W) (est : V → V → V → PyF) (fuel : ℕ) (m : Method) (dt : ℝ) (tstep : ℕ)
    (c : Closure V) (hc : ClosureIn S W tstep c) (r : Closure V × ℝ × ℝ)
    (h : integrate F est fuel m dt tstep c = some r) : r.1.u0 ∈ S ∧ (m = .AB2 → r.1.u1 ∈ W) ∧ ∀ k, r.1.fY k ∈ W := by
  cases m with
  | RK4 =>
    simp only [integrate, Option.some.injEq] at h
    subst h
    refine ⟨?_, by simp, hc.fY⟩
    simp only [RK4, List.range_succ, List.range_zero, List.nil_append, List.cons_append, List.foldl_cons,
      List.foldl_nil, rk4Stage]
    have k1 := hF c.rhs c.u0 hc.u0
    have s1 := hS _ hc.u0 _ (W.smul_mem (rk4b 0 * dt) k1)
    have k2 := hF (F c.rhs c.u0) _ s1
    have s2 := hS _ hc.u0 _ (W.smul_mem (rk4b 1 * dt) k2)
    have k3 := hF (F (F c.rhs c.u0) (c.u0 + (rk4b 0 * dt) • F c.rhs c.u0)) _ s2
    have s3 := hS _ hc.u0 _ (W.smul_mem (rk4b 2 * dt) k3)
    have k4 := hF (F (F (F c.rhs c.u0) (c.u0 + (rk4b 0 * dt) • F c.rhs c.u0))
      (c.u0 + (rk4b 1 * dt) • F (F c.rhs c.u0) (c.u0 + (rk4b 0 * dt) • F c.rhs c.u0))) _ s3
    exact hS _ (hS _ (hS _ (hS _ hc.u0 _ (W.smul_mem _ k1)) _ (W.smul_mem _ k2)) _ (W.smul_mem _ k3)) _
      (W.smul_mem _ k4)
  | ForwardEuler =>
    simp only [integrate, ForwardEuler, Option.some.injEq] at h
    subst h
    exact ⟨hS _ hc.u0 _ (W.smul_mem _ (hF _ _ hc.u0)), by simp, hc.fY⟩
  | AB2 =>
    simp only [integrate, AB2, Option.some.injEq] at h
    subst h
    have k1 := W.smul_mem dt (hF c.rhs c.u0 hc.u0)
    refine ⟨?_, fun _ => k1, hc.fY⟩
    simp only
    split
    · exact hS _ hc.u0 _ k1
    · rename_i ht
      exact hS _ hc.u0 _ (W.sub_mem (W.smul_mem _ k1) (W.smul_mem _ (hc.u1.resolve_left ht)))
  | BS5 adaptive =>
    simp only [integrate, Option.map_eq_some_iff] at h
    obtain ⟨res, hres, rfl⟩ := h
    obtain ⟨h1, h2⟩ := adaptiveLoop_mem F W S hS hF bs5 4 true adaptive est tstep fuel facmaxDefault dt
      ⟨c.u0, c.fY, c.rhs, c.offset⟩ [] res hc.u0 hc.fY hres
    exact ⟨h1, by simp, h2⟩

theorem runSteps_mem (F : V → V → V) (W : Submodule ℝ V) (S : Set V) (hS : ∀ u ∈ S, ∀ w ∈ W, u + w ∈ S)
    (hF : ∀ r, ∀ u ∈ S, F r u ∈ W) (est : V → V → V → PyF) (fuel : ℕ) (m : Method) (ds : List ℝ) :
    ∀ (tstep : ℕ) (c c' : Closure V), c.u0 ∈ S → (m = .AB2 → tstep = 0 ∨ c.u1 ∈ W) → (∀ k, c.fY k ∈ W) →
      runSteps F est fuel m tstep ds c = some c' → c'.u0 ∈ S := by
  induction ds with
  | nil =>
    intro tstep c c' h0 _ _ h
    simp only [runSteps, Option.some.injEq] at h
    exact h ▸ h0
  | cons dt ds ih =>
    intro tstep c c' h0 h1 hY h
    simp only [runSteps] at h
    split at h
    · simp at h
    · rename_i r hr
      by_cases hm : m = .AB2
      · obtain ⟨a, b, d⟩ := integrate_mem F W S hS hF est fuel m dt tstep c ⟨h0, h1 hm, hY⟩ r hr
        exact ih _ _ _ a (fun h => Or.inr (b h)) d h
      · -- other methods never read `u1`
        have hc' : ClosureIn S W tstep { c with u1 := 0 } := ⟨h0, Or.inr W.zero_mem, hY⟩
        have : ∃ r', integrate F est fuel m dt tstep { c with u1 := 0 } = some r' ∧ r'.1.u0 = r.1.u0 ∧
            r'.1.fY = r.1.fY := by
          cases m with
          | AB2 => exact absurd rfl hm
          | RK4 =>
            simp only [integrate, Option.some.injEq] at hr ⊢
            exact ⟨_, rfl, by rw [← hr]; rfl, by rw [← hr]⟩
          | ForwardEuler =>
            simp only [integrate, Option.some.injEq] at hr ⊢
            exact ⟨_, rfl, by rw [← hr], by rw [← hr]⟩
          | BS5 adaptive =>
            simp only [integrate, Option.map_eq_some_iff] at hr ⊢
            obtain ⟨res, hres, rfl⟩ := hr
            exact ⟨_, ⟨res, hres, rfl⟩, rfl, rfl⟩
        obtain ⟨r', hr', e1, e2⟩ := this
        obtain ⟨a, b, d⟩ := integrate_mem F W S hS hF est fuel m dt tstep _ hc' r' hr'
        rw [e1] at a
        rw [e2] at d
        exact ih _ _ _ a (fun h => absurd h hm) d h

/-- Runs started by `getintegrator`: the state stays in `S`.  For AB2 the run has to start at `tstep = 0`
or the state itself has to be in `W`, because the history array is initialised with the state. -/
theorem run_mem (F : V → V → V) (W : Submodule ℝ V) (S : Set V) (hS : ∀ u ∈ S, ∀ w ∈ W, u + w ∈ S)
    (hF : ∀ r, ∀ u ∈ S, F r u ∈ W) (est : V → V → V → PyF) (fuel : ℕ) (m : Method) (ds : List ℝ)
    (tstep : ℕ) (rhs u : V) (hu : u ∈ S) (hab : m = .AB2 → tstep = 0 ∨ u ∈ W) (c' : Closure V)
    (h : runSteps F est fuel m tstep ds (getintegrator rhs u) = some c') : c'.u0 ∈ S :=
  runSteps_mem F W S hS hF est fuel m ds tstep _ c' hu hab (fun _ => W.zero_mem) h

/-! ### Simulation along a linear map -/

theorem stageAccum_map (L : V →ₗ[ℝ] V') (T : Tableau) (dt : ℝ) (o : ℤ) (i : ℕ) (fY : ℕ → V) (fY' : ℕ → V')
    (h : ∀ k, fY' k = L (fY k)) : ∀ k, stageAccum T dt o i fY' k = L (stageAccum T dt o i fY k) := by
  unfold stageAccum
  have key : ∀ (l : List ℕ) (a : ℕ → V) (a' : ℕ → V'), (∀ k, a' k = L (a k)) → ∀ k,
      l.foldl (fun r j => Function.update r (slot T.s i o)
        (r (slot T.s i o) + (dt * T.A i j) • r (slot T.s j o))) a' k =
      L (l.foldl (fun r j => Function.update r (slot T.s i o)
        (r (slot T.s i o) + (dt * T.A i j) • r (slot T.s j o))) a k) := by
    intro l
    induction l with
    | nil => intro a a' h; exact h
    | cons j l ih =>
      intro a a' h
      refine ih _ _ fun k => ?_
      by_cases hk : k = slot T.s i o
      · subst hk; simp [h]
      · simp only [Function.update_of_ne hk, h]
  exact key _ _ _ h

/-- Simulation hypotheses: on states in `S` the map `L` intertwines the right-hand sides. -/
structure Intertwines (L : V →ₗ[ℝ] V') (S : Set V) (W : Submodule ℝ V) (F : V → V → V) (F' : V' → V' → V') : Prop where
  closed : ∀ u ∈ S, ∀ w ∈ W, u + w ∈ S
  rhs_mem : ∀ r, ∀ u ∈ S, F r u ∈ W
  comm : ∀ r r', ∀ u ∈ S, F' r' (L u) = L (F r u)

theorem rkStage_map {L : V →ₗ[ℝ] V'} {S : Set V} {W : Submodule ℝ V} {F : V → V → V} {F' : V' → V' → V'}
    (H : Intertwines L S W F F') (T : Tableau) (fsal : Bool) (tstep : ℕ) (dt : ℝ) (o : ℤ) (u0 : V)
    (hu : u0 ∈ S) (st : (ℕ → V) × V) (st' : (ℕ → V') × V') (hst : ∀ k, st.1 k ∈ W)
    (h : ∀ k, st'.1 k = L (st.1 k)) (i : ℕ) (hi : i < T.s) :
    ∀ k, (rkStage F' T fsal tstep dt o (L u0) st' i).1 k = L ((rkStage F T fsal tstep dt o u0 st i).1 k) := by
  intro k
  unfold rkStage
  split
  · have hupd : ∀ k, Function.update st'.1 (slot T.s i o) (L u0) k = L (Function.update st.1 (slot T.s i o) u0 k) := by
      intro k
      by_cases hk : k = slot T.s i o
      · subst hk; simp
      · rw [Function.update_of_ne hk, Function.update_of_ne hk, h]
    have hacc := stageAccum_map L T dt o i _ _ hupd
    simp only
    by_cases hk : k = slot T.s i o
    · subst hk
      rw [Function.update_self, Function.update_self, hacc]
      exact H.comm _ _ _ (stageAccum_mem W S H.closed T dt o i hi u0 hu st.1 hst)
    · rw [Function.update_of_ne hk, Function.update_of_ne hk, hacc]
  · exact h k

theorem rkStages_map {L : V →ₗ[ℝ] V'} {S : Set V} {W : Submodule ℝ V} {F : V → V → V} {F' : V' → V' → V'}
    (H : Intertwines L S W F F') (T : Tableau) (fsal : Bool) (tstep : ℕ) (dt : ℝ) (o : ℤ) (u0 : V)
    (hu : u0 ∈ S) (st : (ℕ → V) × V) (st' : (ℕ → V') × V') (hst : ∀ k, st.1 k ∈ W)
    (h : ∀ k, st'.1 k = L (st.1 k)) :
    ∀ k, (rkStages F' T fsal tstep dt o (L u0) st').1 k = L ((rkStages F T fsal tstep dt o u0 st).1 k) := by
  have key : ∀ m ≤ T.s,
      (∀ k, ((List.range m).foldl (rkStage F T fsal tstep dt o u0) st).1 k ∈ W) ∧
      ∀ k, ((List.range m).foldl (rkStage F' T fsal tstep dt o (L u0)) st').1 k =
        L (((List.range m).foldl (rkStage F T fsal tstep dt o u0) st).1 k) := by
    intro m
    induction m with
    | zero => intro _; exact ⟨by simpa using hst, by simpa using h⟩
    | succ m ih =>
      intro hm
      obtain ⟨i1, i2⟩ := ih (by omega)
      rw [List.range_succ, List.foldl_append, List.foldl_append]
      exact ⟨rkStage_mem F W S H.closed H.rhs_mem T fsal tstep dt o u0 hu _ i1 m (by omega),
        rkStage_map H T fsal tstep dt o u0 hu _ _ i1 i2 m (by omega)⟩
  exact (key T.s le_rfl).2

theorem foldl_map_lin (L : V →ₗ[ℝ] V') (c : ℕ → ℝ) (g : ℕ → V) (g' : ℕ → V') (h : ∀ k, g' k = L (g k)) :
    ∀ (l : List ℕ) (x : V), l.foldl (fun r j => r + c j • g' j) (L x) = L (l.foldl (fun r j => r + c j • g j) x) := by
  intro l
  induction l with
  | nil => intro x; rfl
  | cons a l ih =>
    intro x
    simp only [List.foldl_cons]
    rw [← ih, map_add, map_smul, h]

theorem rkNew_map (L : V →ₗ[ℝ] V') (T : Tableau) (dt : ℝ) (o : ℤ) (u0 : V) (fY : ℕ → V) (fY' : ℕ → V')
    (h : ∀ k, fY' k = L (fY k)) : rkNew T dt o (L u0) fY' = L (rkNew T dt o u0 fY) := by
  unfold rkNew
  rw [← foldl_map_lin L (fun j => dt * T.b j) (fun j => fY (slot T.s j o)) (fun j => fY' (slot T.s j o))
    (fun k => h _), map_add, map_smul, h]

theorem rkErr_map (L : V →ₗ[ℝ] V') (T : Tableau) (dt : ℝ) (o : ℤ) (fY : ℕ → V) (fY' : ℕ → V')
    (h : ∀ k, fY' k = L (fY k)) : rkErr T dt o fY' = L (rkErr T dt o fY) := by
  unfold rkErr
  rw [← foldl_map_lin L (fun j => dt * (T.b j - T.bhat j)) (fun j => fY (slot T.s j o))
    (fun j => fY' (slot T.s j o)) (fun k => h _), map_smul, h]

theorem adaptiveLoop_map {L : V →ₗ[ℝ] V'} {S : Set V} {W : Submodule ℝ V} {F : V → V → V} {F' : V' → V' → V'}
    (H : Intertwines L S W F F') (T : Tableau) (p : ℕ) (fsal adaptive : Bool)
    (est : V → V → V → PyF) (est' : V' → V' → V' → PyF)
    (hest : adaptive = true → ∀ a, ∀ b ∈ S, ∀ c ∈ S, est' (L a) (L b) (L c) = est a b c)
    (tstep fuel : ℕ) : ∀ (facmax dt : ℝ) (st : RKArrays V) (st' : RKArrays V') (rej : List ℝ) (res : RKResult V),
      st.u0 ∈ S → (∀ k, st.fY k ∈ W) → st'.u0 = L st.u0 → (∀ k, st'.fY k = L (st.fY k)) → st'.offset = st.offset →
      adaptiveLoop F T p fsal adaptive est tstep fuel facmax dt st rej = some res →
      ∃ res', adaptiveLoop F' T p fsal adaptive est' tstep fuel facmax dt st' rej = some res' ∧
        res'.arrays.u0 = L res.arrays.u0 ∧ (∀ k, res'.arrays.fY k = L (res.arrays.fY k)) ∧
        res'.arrays.offset = res.arrays.offset ∧ res'.dt = res.dt ∧ res'.took = res.took := by
  induction fuel with
  | zero => intro _ _ _ _ _ _ _ _ _ _ _ h; simp [adaptiveLoop] at h
  | succ n ih =>
    intro facmax dt st st' rej res hu hY hu' hY' ho' h
    have h1 : ∀ k, (rkTrial F T fsal est tstep dt st).fY k ∈ W :=
      rkStages_mem F W S H.closed H.rhs_mem T fsal tstep dt _ st.u0 hu (st.fY, st.rhs) hY
    have h2 : (rkTrial F T fsal est tstep dt st).new ∈ S := rkNew_mem W S H.closed T dt _ st.u0 hu _ h1
    have o1 : (rkTrial F' T fsal est' tstep dt st').offset = (rkTrial F T fsal est tstep dt st).offset := by
      simp only [rkTrial, ho']
    have m1 : ∀ k, (rkTrial F' T fsal est' tstep dt st').fY k = L ((rkTrial F T fsal est tstep dt st).fY k) := by
      have := rkStages_map H T fsal tstep dt (if fsal then (st.offset - 1) % (T.s : ℤ) else st.offset) st.u0 hu
        (st.fY, st.rhs) (st'.fY, st'.rhs) hY hY'
      rw [← hu', ← ho'] at this
      simpa only [rkTrial, ho'] using this
    have m2 : (rkTrial F' T fsal est' tstep dt st').new = L (rkTrial F T fsal est tstep dt st).new := by
      have := rkNew_map L T dt (rkTrial F T fsal est tstep dt st).offset st.u0 _ _ m1
      rw [← o1, ← hu'] at this
      rw [o1] at this
      simpa only [rkTrial, ho'] using this
    have m3 : adaptive = true →
        (rkTrial F' T fsal est' tstep dt st').est = (rkTrial F T fsal est tstep dt st).est := by
      intro ha
      have e1 := rkErr_map L T dt (rkTrial F T fsal est tstep dt st).offset _ _ m1
      have : (rkTrial F' T fsal est' tstep dt st').est =
          est' (rkErr T dt (rkTrial F' T fsal est' tstep dt st').offset (rkTrial F' T fsal est' tstep dt st').fY)
            st'.u0 (rkTrial F' T fsal est' tstep dt st').new := rfl
      rw [this, o1, e1, m2, hu', hest ha _ _ hu _ h2]
      rfl
    simp only [adaptiveLoop] at h ⊢
    by_cases ha : adaptive = true
    · rw [if_pos ha] at h ⊢
      by_cases hg : PyF.Gt (rkTrial F T fsal est tstep dt st).est (.fin 1)
      · rw [if_pos hg] at h
        rw [if_pos (by rw [m3 ha]; exact hg)]
        rw [m3 ha]
        refine ih _ _ ⟨st.u0, (rkTrial F T fsal est tstep dt st).fY, _, _⟩
          ⟨st'.u0, (rkTrial F' T fsal est' tstep dt st').fY, _, _⟩ _ _ hu h1 hu' m1 ?_ h
        simp only [o1]
      · rw [if_neg hg] at h
        rw [if_neg (by rw [m3 ha]; exact hg)]
        simp only [Option.some.injEq] at h
        subst h
        exact ⟨_, rfl, m2, m1, o1, by simp only [m3 ha], rfl⟩
    · rw [if_neg ha] at h ⊢
      simp only [Option.some.injEq] at h
      subst h
      exact ⟨_, rfl, m2, m1, o1, rfl, rfl⟩

/-- Relation between the closures of two simulated runs. -/
structure ClosureMap (L : V →ₗ[ℝ] V') (S : Set V) (W : Submodule ℝ V) (m : Method) (tstep : ℕ) (c : Closure V)
    (c' : Closure V') : Prop where
  mem : c.u0 ∈ S
  u1mem : m = .AB2 → tstep = 0 ∨ c.u1 ∈ W
  fYmem : ∀ k, c.fY k ∈ W
  u0 : c'.u0 = L c.u0
  u1 : m = .AB2 → tstep = 0 ∨ c'.u1 = L c.u1
  fY : ∀ k, c'.fY k = L (c.fY k)
  offset : c'.offset = c.offset

theorem integrate_map {L : V →ₗ[ℝ] V'} {S : Set V} {W : Submodule ℝ V} {F : V → V → V} {F' : V' → V' → V'}
    (H : Intertwines L S W F F') (est : V → V → V → PyF) (est' : V' → V' → V' → PyF) (m : Method)
    (hest : m = .BS5 true → ∀ a, ∀ b ∈ S, ∀ c ∈ S, est' (L a) (L b) (L c) = est a b c)
    (fuel : ℕ) (dt : ℝ) (tstep : ℕ) (c : Closure V) (c' : Closure V') (hc : ClosureMap L S W m tstep c c')
    (r : Closure V × ℝ × ℝ) (h : integrate F est fuel m dt tstep c = some r) :
    ∃ r', integrate F' est' fuel m dt tstep c' = some r' ∧ ClosureMap L S W m (tstep + 1) r.1 r'.1 ∧ r'.2 = r.2 := by
  cases m with
  | RK4 =>
    have k1 := fun r => H.rhs_mem r c.u0 hc.mem
    have s1 := fun r => H.closed _ hc.mem _ (W.smul_mem (rk4b 0 * dt) (k1 r))
    have k2 := fun r r' => H.rhs_mem r _ (s1 r')
    have s2 := fun r r' => H.closed _ hc.mem _ (W.smul_mem (rk4b 1 * dt) (k2 r r'))
    have k3 := fun r r' r'' => H.rhs_mem r _ (s2 r' r'')
    have s3 := fun r r' r'' => H.closed _ hc.mem _ (W.smul_mem (rk4b 2 * dt) (k3 r r' r''))
    have hmem := integrate_mem F W S H.closed H.rhs_mem est fuel .RK4 dt 0 c ⟨hc.mem, Or.inl rfl, hc.fYmem⟩ r
      (by simpa only [integrate] using h)
    simp only [integrate, Option.some.injEq] at h ⊢
    refine ⟨_, rfl, ⟨hmem.1, by simp, hmem.2.2, ?_, by simp, ?_, ?_⟩, ?_⟩
    · rw [← h]
      simp only [RK4, List.range_succ, List.range_zero, List.nil_append, List.cons_append, List.foldl_cons,
        List.foldl_nil, rk4Stage, Nat.lt_irrefl, if_false, if_true, Nat.zero_lt_succ, Nat.one_lt_succ_succ,
        Nat.lt_succ_self, hc.u0]
      have c1 : ∀ r r', F' r' (L c.u0) = L (F r c.u0) := fun r r' => H.comm _ _ _ hc.mem
      have c2 : ∀ r r' q, F' r' (L c.u0 + (rk4b 0 * dt) • L (F q c.u0)) =
          L (F r (c.u0 + (rk4b 0 * dt) • F q c.u0)) := fun r r' q => by
        rw [← map_smul, ← map_add]; exact H.comm _ _ _ (s1 q)
      have c3 : ∀ r r' q q', F' r' (L c.u0 + (rk4b 1 * dt) • L (F q (c.u0 + (rk4b 0 * dt) • F q' c.u0))) =
          L (F r (c.u0 + (rk4b 1 * dt) • F q (c.u0 + (rk4b 0 * dt) • F q' c.u0))) := fun r r' q q' => by
        rw [← map_smul, ← map_add]; exact H.comm _ _ _ (s2 q q')
      have c4 : ∀ r r' q q' q'', F' r' (L c.u0 + (rk4b 2 * dt) •
            L (F q (c.u0 + (rk4b 1 * dt) • F q' (c.u0 + (rk4b 0 * dt) • F q'' c.u0)))) =
          L (F r (c.u0 + (rk4b 2 * dt) • F q (c.u0 + (rk4b 1 * dt) • F q' (c.u0 + (rk4b 0 * dt) • F q'' c.u0)))) :=
        fun r r' q q' q'' => by
          rw [← map_smul, ← map_add]; exact H.comm _ _ _ (s3 q q' q'')
      rw [c1 c.rhs, c2 (F c.rhs c.u0), c3 (F (F c.rhs c.u0) (c.u0 + (rk4b 0 * dt) • F c.rhs c.u0)),
        c4 (F (F (F c.rhs c.u0) (c.u0 + (rk4b 0 * dt) • F c.rhs c.u0))
          (c.u0 + (rk4b 1 * dt) • F (F c.rhs c.u0) (c.u0 + (rk4b 0 * dt) • F c.rhs c.u0)))]
      simp only [map_add, map_smul]
    · rw [← h]; exact hc.fY
    · rw [← h]; exact hc.offset
    · rw [← h]; rfl
  | ForwardEuler =>
    have hmem := integrate_mem F W S H.closed H.rhs_mem est fuel .ForwardEuler dt 0 c ⟨hc.mem, Or.inl rfl, hc.fYmem⟩ r
      (by simpa only [integrate] using h)
    simp only [integrate, ForwardEuler, Option.some.injEq] at h ⊢
    refine ⟨_, rfl, ⟨hmem.1, by simp, hmem.2.2, ?_, by simp, ?_, ?_⟩, ?_⟩
    · rw [← h]; simp only [hc.u0, H.comm c.rhs _ _ hc.mem, map_add, map_smul]
    · rw [← h]; exact hc.fY
    · rw [← h]; exact hc.offset
    · rw [← h]
  | AB2 =>
    have hmem := integrate_mem F W S H.closed H.rhs_mem est fuel .AB2 dt tstep c ⟨hc.mem, hc.u1mem rfl, hc.fYmem⟩ r h
    simp only [integrate, AB2, Option.some.injEq] at h ⊢
    refine ⟨_, rfl, ⟨hmem.1, fun _ => Or.inr (hmem.2.1 rfl), hmem.2.2, ?_, fun _ => Or.inr ?_, ?_, ?_⟩, ?_⟩
    · rw [← h]
      simp only
      split
      · simp only [hc.u0, H.comm c.rhs _ _ hc.mem, map_add, map_smul]
      · rename_i ht
        rw [(hc.u1 rfl).resolve_left ht]
        simp only [hc.u0, H.comm c.rhs _ _ hc.mem, map_add, map_smul, map_sub]
    · rw [← h]; simp only [hc.u0, H.comm c.rhs _ _ hc.mem, map_smul]
    · rw [← h]; exact hc.fY
    · rw [← h]; exact hc.offset
    · rw [← h]
  | BS5 adaptive =>
    simp only [integrate, Option.map_eq_some_iff] at h ⊢
    obtain ⟨res, hres, rfl⟩ := h
    have hmem := adaptiveLoop_mem F W S H.closed H.rhs_mem bs5 4 true adaptive est tstep fuel facmaxDefault dt
      ⟨c.u0, c.fY, c.rhs, c.offset⟩ [] res hc.mem hc.fYmem hres
    obtain ⟨res', h1, h2, h3, h4, h5, h6⟩ := adaptiveLoop_map H bs5 4 true adaptive est est'
      (fun ha => hest (by rw [ha])) tstep fuel facmaxDefault dt ⟨c.u0, c.fY, c.rhs, c.offset⟩
      ⟨c'.u0, c'.fY, c'.rhs, c'.offset⟩ [] res hc.mem hc.fYmem hc.u0 hc.fY hc.offset hres
    refine ⟨_, ⟨res', h1, rfl⟩, ⟨hmem.1, by simp, hmem.2, h2, by simp, h3, h4⟩, ?_⟩
    simp only [h5, h6]

theorem runSteps_map {L : V →ₗ[ℝ] V'} {S : Set V} {W : Submodule ℝ V} {F : V → V → V} {F' : V' → V' → V'}
    (H : Intertwines L S W F F') (est : V → V → V → PyF) (est' : V' → V' → V' → PyF) (m : Method)
    (hest : m = .BS5 true → ∀ a, ∀ b ∈ S, ∀ c ∈ S, est' (L a) (L b) (L c) = est a b c)
    (fuel : ℕ) (ds : List ℝ) : ∀ (tstep : ℕ) (c : Closure V) (c' : Closure V'), ClosureMap L S W m tstep c c' →
      ∀ r, runSteps F est fuel m tstep ds c = some r →
      ∃ r', runSteps F' est' fuel m tstep ds c' = some r' ∧ r'.u0 = L r.u0 := by
  induction ds with
  | nil =>
    intro tstep c c' hc r h
    simp only [runSteps, Option.some.injEq] at h ⊢
    exact ⟨c', rfl, h ▸ hc.u0⟩
  | cons dt ds ih =>
    intro tstep c c' hc r h
    simp only [runSteps] at h ⊢
    split at h
    · simp at h
    · rename_i x hx
      obtain ⟨x', hx', hcm, -⟩ := integrate_map H est est' m hest fuel dt tstep c c' hc x hx
      rw [hx']
      exact ih _ _ _ hcm r h

/-- Simulation of whole runs started by `getintegrator`. -/
theorem run_map {L : V →ₗ[ℝ] V'} {S : Set V} {W : Submodule ℝ V} {F : V → V → V} {F' : V' → V' → V'}
    (H : Intertwines L S W F F') (est : V → V → V → PyF) (est' : V' → V' → V' → PyF) (m : Method)
    (hest : m = .BS5 true → ∀ a, ∀ b ∈ S, ∀ c ∈ S, est' (L a) (L b) (L c) = est a b c)
    (fuel : ℕ) (ds : List ℝ) (tstep : ℕ) (rhs u : V) (rhs' : V') (hu : u ∈ S)
    (hab : m = .AB2 → tstep = 0 ∨ u ∈ W) (r : Closure V)
    (h : runSteps F est fuel m tstep ds (getintegrator rhs u) = some r) :
    ∃ r', runSteps F' est' fuel m tstep ds (getintegrator rhs' (L u)) = some r' ∧ r'.u0 = L r.u0 :=
  runSteps_map H est est' m hest fuel ds tstep _ _
    ⟨hu, hab, fun _ => W.zero_mem, rfl, fun _ => Or.inr rfl, fun _ => (map_zero L).symm, rfl⟩ r h

end SpectralDNS

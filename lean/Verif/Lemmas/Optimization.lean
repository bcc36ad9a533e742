import Verif.Model.Optimization
import Mathlib.Data.List.Nodup
import Mathlib.Data.List.ProdSigma
import Mathlib.Tactic.Ring
import Mathlib.Tactic.LinearCombination

/-! Loop nests which write every entry once. -/

namespace SpectralDNS.Opt

open Periodic

/-- A fold whose pass `i` changes only the part of the state seen at `i`, and changes it as a function of itself. -/
theorem foldl_get {ι S σ : Type*} [DecidableEq ι] (get : S → ι → σ) (body : ι → S → S) (F : ι → σ → σ)
    (hb : ∀ i s j, get (body i s) j = if j = i then F i (get s i) else get s j) :
    ∀ (l : List ι), l.Nodup → ∀ s j, get (l.foldl (fun s i => body i s) s) j = if j ∈ l then F j (get s j) else get s j := by
  intro l
  induction l with
  | nil => intro _ s j; simp
  | cons a l ih =>
    intro hl s j
    rw [List.nodup_cons] at hl
    rw [List.foldl_cons, ih hl.2, hb]
    by_cases hja : j = a
    · subst hja; simp [hl.1]
    · by_cases hjl : j ∈ l <;> simp [hja, hjl]

theorem forRange_eq {S : Type*} (n : ℕ) (body : Fin n → S → S) (s : S) :
    forRange n body s = (List.finRange n).foldl (fun s i => body i s) s := rfl

theorem foldl_product {S α β : Type*} (l : List α) (m : List β) (body : α × β → S → S) (s : S) :
    (l ×ˢ m).foldl (fun s p => body p s) s = l.foldl (fun s a => m.foldl (fun s b => body (a, b) s) s) s := by
  induction l generalizing s with
  | nil => rfl
  | cons a l ih => rw [List.product_cons, List.foldl_append, ih, List.foldl_map]; rfl

/-- All indices of a two-dimensional array, in loop order. -/
def ix2 (n0 n1 : ℕ) : List (Fin n0 × Fin n1) := List.finRange n0 ×ˢ List.finRange n1
/-- All indices of a three-dimensional array, in loop order. -/
def ix3 (n0 n1 n2 : ℕ) : List (Ix3 n0 n1 n2) := List.finRange n0 ×ˢ ix2 n1 n2
/-- All indices of a four-dimensional array, in loop order. -/
def ix4 (n n0 n1 n2 : ℕ) : List (Ix4 n n0 n1 n2) := List.finRange n ×ˢ ix3 n0 n1 n2

theorem ix2_nodup (n0 n1 : ℕ) : (ix2 n0 n1).Nodup := (List.nodup_finRange _).product (List.nodup_finRange _)
theorem ix3_nodup (n0 n1 n2 : ℕ) : (ix3 n0 n1 n2).Nodup := (List.nodup_finRange _).product (ix2_nodup _ _)
theorem ix4_nodup (n n0 n1 n2 : ℕ) : (ix4 n n0 n1 n2).Nodup := (List.nodup_finRange _).product (ix3_nodup _ _ _)

theorem mem_ix2 {n0 n1 : ℕ} (p : Fin n0 × Fin n1) : p ∈ ix2 n0 n1 :=
  List.pair_mem_product.2 ⟨List.mem_finRange _, List.mem_finRange _⟩
theorem mem_ix3 {n0 n1 n2 : ℕ} (p : Ix3 n0 n1 n2) : p ∈ ix3 n0 n1 n2 :=
  List.pair_mem_product.2 ⟨List.mem_finRange _, mem_ix2 _⟩
theorem mem_ix4 {n n0 n1 n2 : ℕ} (p : Ix4 n n0 n1 n2) : p ∈ ix4 n n0 n1 n2 :=
  List.pair_mem_product.2 ⟨List.mem_finRange _, mem_ix3 _⟩

theorem loop2D_eq {S : Type*} {n0 n1 : ℕ} (body : Fin n0 × Fin n1 → S → S) (s : S) :
    loop2D body s = (ix2 n0 n1).foldl (fun s p => body p s) s := by
  rw [ix2, foldl_product]; rfl

theorem loop3D_eq {S : Type*} {n0 n1 n2 : ℕ} (body : Ix3 n0 n1 n2 → S → S) (s : S) :
    loop3D body s = (ix3 n0 n1 n2).foldl (fun s p => body p s) s := by
  rw [ix3, foldl_product]
  simp only [loop3D, forRange, loop2D_eq]

theorem loop4D_eq {S : Type*} {n n0 n1 n2 : ℕ} (body : Ix4 n n0 n1 n2 → S → S) (s : S) :
    loop4D body s = (ix4 n n0 n1 n2).foldl (fun s p => body p s) s := by
  rw [ix4, foldl_product]
  simp only [loop4D, forRange, loop3D_eq]

/-- A nest which runs through every index exactly once. -/
def Nest.Full {κ : Type*} (L : Nest κ) : Prop :=
  ∃ l : List κ, l.Nodup ∧ (∀ p, p ∈ l) ∧ ∀ (S : Type) (body : κ → S → S) (s : S), L S body s = l.foldl (fun s p => body p s) s

theorem nest4_full (n n0 n1 n2 : ℕ) : (nest4 n n0 n1 n2).Full := ⟨_, ix4_nodup _ _ _ _, mem_ix4, fun _ body s => loop4D_eq body s⟩
theorem nest3_full (n n0 n1 : ℕ) : (nest3 n n0 n1).Full := ⟨_, ix3_nodup _ _ _, mem_ix3, fun _ body s => loop3D_eq body s⟩

theorem Nest.Full.get {κ : Type} [DecidableEq κ] {L : Nest κ} (hL : L.Full) {S : Type} {σ : Type*} (get : S → κ → σ)
    (body : κ → S → S) (F : κ → σ → σ)
    (hb : ∀ i s j, get (body i s) j = if j = i then F i (get s i) else get s j) (s : S) (j : κ) :
    get (L S body s) j = F j (get s j) := by
  obtain ⟨l, hn, hm, h⟩ := hL
  rw [h, foldl_get get body F hb l hn, if_pos (hm j)]

theorem loop2D_get {S σ : Type*} {n0 n1 : ℕ} (get : S → Fin n0 × Fin n1 → σ) (body : Fin n0 × Fin n1 → S → S)
    (F : Fin n0 × Fin n1 → σ → σ) (hb : ∀ i s j, get (body i s) j = if j = i then F i (get s i) else get s j) (s : S)
    (j : Fin n0 × Fin n1) : get (loop2D body s) j = F j (get s j) := by
  rw [loop2D_eq, foldl_get get body F hb _ (ix2_nodup _ _), if_pos (mem_ix2 j)]

theorem loop3D_get {S σ : Type*} {n0 n1 n2 : ℕ} (get : S → Ix3 n0 n1 n2 → σ) (body : Ix3 n0 n1 n2 → S → S)
    (F : Ix3 n0 n1 n2 → σ → σ) (hb : ∀ i s j, get (body i s) j = if j = i then F i (get s i) else get s j) (s : S)
    (j : Ix3 n0 n1 n2) : get (loop3D body s) j = F j (get s j) := by
  rw [loop3D_eq, foldl_get get body F hb _ (ix3_nodup _ _ _), if_pos (mem_ix3 j)]

theorem loop4D_get {S σ : Type*} {n n0 n1 n2 : ℕ} (get : S → Ix4 n n0 n1 n2 → σ) (body : Ix4 n n0 n1 n2 → S → S)
    (F : Ix4 n n0 n1 n2 → σ → σ) (hb : ∀ i s j, get (body i s) j = if j = i then F i (get s i) else get s j) (s : S)
    (j : Ix4 n n0 n1 n2) : get (loop4D body s) j = F j (get s j) := by
  rw [loop4D_eq, foldl_get get body F hb _ (ix4_nodup _ _ _ _), if_pos (mem_ix4 j)]

theorem wr_apply {κ R : Type*} [DecidableEq κ] {d : ℕ} (c : Fin d → κ → R) (m : Fin d) (p : κ) (v : R) (m' : Fin d) (p' : κ) :
    wr c m p v m' p' = if m' = m ∧ p' = p then v else c m' p' := by
  unfold wr
  by_cases hm : m' = m
  · subst hm
    by_cases hp : p' = p
    · subst hp; simp
    · simp [hp]
  · simp [hm]

/-! ### The integrator loops -/

section

variable {κ : Type} [DecidableEq κ] {L : Nest κ}

theorem loop1_eq (hL : L.Full) (U : κ → ℂ) (s : (κ → ℂ) × (κ → ℂ)) : loop1 L U s = (U, U) := by
  have h := fun j => hL.get (σ := ℂ × ℂ) (fun (s : (κ → ℂ) × (κ → ℂ)) j => (s.1 j, s.2 j))
    (fun i s => (Function.update s.1 i (U i), Function.update s.2 i (U i))) (fun i _ => (U i, U i))
    (by intro i s j; by_cases h : j = i <;> simp [h]) s j
  refine Prod.ext (funext fun j => congrArg Prod.fst (h j)) (funext fun j => congrArg Prod.snd (h j))

theorem single_eq (hL : L.Full) (F : κ → ℂ → ℂ) (U : κ → ℂ) :
    L _ (fun i U => Function.update U i (F i (U i))) U = fun i => F i (U i) :=
  funext fun j => hL.get (σ := ℂ) (fun s j => s j) _ F
    (by intro i s j; by_cases h : j = i <;> simp [h]) U j

theorem loop2_eq (hL : L.Full) (dU U0 : κ → ℂ) (b dt : ℝ) (U : κ → ℂ) : loop2 L dU U0 b dt U = U0 + (b * dt) • dU := by
  refine (single_eq hL (fun i _ => U0 i + (b : ℂ) * dt * dU i) U).trans ?_
  funext i; simp [mul_assoc]

theorem loop3_eq (hL : L.Full) (dU : κ → ℂ) (a dt : ℝ) (U : κ → ℂ) : loop3 L dU a dt U = U + (a * dt) • dU := by
  refine (single_eq hL (fun i z => z + (a : ℂ) * dt * dU i) U).trans ?_
  funext i; simp [mul_assoc]

theorem loop4_eq (hL : L.Full) (U1 U : κ → ℂ) : loop4 L U1 U = U1 := single_eq hL (fun i _ => U1 i) U

theorem loop5_eq (hL : L.Full) (dU : κ → ℂ) (dt : ℝ) (U : κ → ℂ) : loop5 L dU dt U = U + dt • dU := by
  refine (single_eq hL (fun i z => z + dU i * dt) U).trans ?_
  funext i; simp [mul_comm]

theorem loop6_eq (hL : L.Full) (dU U0 : κ → ℂ) (dt : ℝ) (U : κ → ℂ) :
    loop6 L dU U0 dt U = U + ((1.5 : ℝ) • dt • dU - (0.5 : ℝ) • U0) := by
  refine (single_eq hL (fun i z => z + (1.5 : ℝ) * dU i * dt - (0.5 : ℝ) * U0 i) U).trans ?_
  funext i
  simp only [Pi.add_apply, Pi.sub_apply, Pi.smul_apply, Complex.real_smul]
  ring

theorem loop7_eq (hL : L.Full) (dU : κ → ℂ) (dt : ℝ) (U0 : κ → ℂ) : loop7 L dU dt U0 = dt • dU := by
  refine (single_eq hL (fun i _ => dU i * dt) U0).trans ?_
  funext i; simp [mul_comm]

end

end SpectralDNS.Opt

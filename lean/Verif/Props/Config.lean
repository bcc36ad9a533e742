import Verif.Model.Config
import Mathlib.Tactic.FieldSimp
import Mathlib.Tactic.NormNum
import Mathlib.Data.List.Induction
import Mathlib.Data.List.Zip

/-! # C47-C50: parameters and command line -/

namespace SpectralDNS.Config

variable (C : Conv)

/-! ## C47 -/

/-- The integers given to `key` by an operation: an assignment, as attribute or as item, of a sequence of integers. -/
def givenInts (key : String) : Op → Option (List ℤ)
  | .setAttr k (.seq l) => if k = key then mapOpt C.int l else none
  | .setItem k (.seq l) => if k = key then mapOpt C.int l else none
  | _ => none

/-- The reals given to `key` by an operation. -/
def givenReals (key : String) : Op → Option (List ℝ)
  | .setAttr k (.seq l) => if k = key then mapOpt C.eval l else none
  | .setItem k (.seq l) => if k = key then mapOpt C.eval l else none
  | _ => none

/-- The last value given in a history. -/
def lastGiven {α : Type*} (f : Op → Option α) (ops : List Op) : Option α := (ops.filterMap f).getLast?

theorem lastGiven_append {α : Type*} (f : Op → Option α) (ops : List Op) (op : Op) :
    lastGiven f (ops ++ [op]) = (f op).or (lastGiven f ops) := by
  unfold lastGiven
  rw [List.filterMap_append]
  rcases h : f op with _ | a <;> simp [h]

theorem history_append (ops : List Op) (op : Op) : history C (ops ++ [op]) = op.run C (history C ops) := by
  simp [history]

theorem run_of_given {α : Type*} (g : Op → Option α) (mk : α → Val) (key : String)
    (h : ∀ op s, (op.run C s) key = ((g op).map mk).or (s key)) (ops : List Op) :
    history C ops key = (lastGiven g ops).map mk := by
  induction ops using List.reverseRecOn with
  | nil => rfl
  | append_singleton ops op ih =>
    rw [history_append, h, ih, lastGiven_append]
    rcases g op with _ | a <;> simp

theorem run_ints (key : String) (hk : key = "M" ∨ key = "N") (op : Op) (s : Store) :
    (op.run C s) key = ((givenInts C key op).map Val.ints).or (s key) := by
  have h1 : key = "N" ∨ key = "M" ∨ key = "L" := by rcases hk with h | h <;> simp [h]
  rcases op with ⟨k, r⟩ | ⟨k, r⟩ | k | k
  · by_cases hkk : k = key
    · subst hkk
      rcases r with l | v
      · rcases h : mapOpt C.int l with _ | x <;> simp [Op.run, setAttr, setItem, convert, givenInts, hk, h1, h]
      · simp [Op.run, setAttr, setItem, convert, givenInts, hk, h1]
    · have hne : ∀ v, Function.update s k v key = s key := fun v => Function.update_of_ne (Ne.symm hkk) v s
      rcases r with l | v <;> by_cases h : k = "N" ∨ k = "M" ∨ k = "L" <;>
        simp only [Op.run, setAttr, setItem, givenInts, hkk, h, if_true, if_false]
      · rcases convert C k (.seq l) <;> simp [hne]
      · simp
      · rcases convert C k (.val v) <;> simp [hne]
      · simp [hne]
  · by_cases hkk : k = key
    · subst hkk
      rcases r with l | v
      · rcases h : mapOpt C.int l with _ | x <;> simp [Op.run, setItem, convert, givenInts, hk, h]
      · simp [Op.run, setItem, convert, givenInts, hk]
    · have hne : ∀ v, Function.update s k v key = s key := fun v => Function.update_of_ne (Ne.symm hkk) v s
      rcases r with l | v <;> simp only [Op.run, setItem, givenInts, hkk, if_false]
      · rcases convert C k (.seq l) <;> simp [hne]
      · rcases convert C k (.val v) <;> simp [hne]
  · simp [Op.run, givenInts]
  · simp [Op.run, givenInts]

theorem run_reals (op : Op) (s : Store) : (op.run C s) "L" = ((givenReals C "L" op).map Val.reals).or (s "L") := by
  rcases op with ⟨k, r⟩ | ⟨k, r⟩ | k | k
  · by_cases hkk : k = "L"
    · subst hkk
      rcases r with l | v
      · rcases h : mapOpt C.eval l with _ | x <;> simp [Op.run, setAttr, setItem, convert, givenReals, h]
      · simp [Op.run, setAttr, setItem, convert, givenReals]
    · have hne : ∀ v, Function.update s k v "L" = s "L" := fun v => Function.update_of_ne (Ne.symm hkk) v s
      by_cases h : k = "N" ∨ k = "M"
      · rcases r with l | v <;> simp only [Op.run, setAttr, setItem, givenReals, hkk, h, or_false, if_true, if_false]
        · rcases convert C k (.seq l) <;> simp [hne]
        · rcases convert C k (.val v) <;> simp [hne]
      · rcases r with l | v <;> simp only [Op.run, setAttr, setItem, givenReals, hkk, h, or_false, if_false]
        · simp
        · simp [hne]
  · by_cases hkk : k = "L"
    · subst hkk
      rcases r with l | v
      · rcases h : mapOpt C.eval l with _ | x <;> simp [Op.run, setItem, convert, givenReals, h]
      · simp [Op.run, setItem, convert, givenReals]
    · have hne : ∀ v, Function.update s k v "L" = s "L" := fun v => Function.update_of_ne (Ne.symm hkk) v s
      rcases r with l | v <;> simp only [Op.run, setItem, givenReals, hkk, if_false]
      · rcases convert C k (.seq l) <;> simp [hne]
      · rcases convert C k (.val v) <;> simp [hne]
  · simp [Op.run, givenReals]
  · simp [Op.run, givenReals]

/-- **C47** The mesh size after any history of operations: the last `N` given, else two to the power of the last `M` given, else the
assertion fails. -/
theorem C47_mesh_size (ops : List Op) :
    getAttr C (history C ops) "N" =
      match lastGiven (givenInts C "N") ops, lastGiven (givenInts C "M") ops with
      | some n, _ => .ok (.ints n)
      | none, some m => if m.all (0 ≤ ·) then .ok (.ints (m.map fun x => 2 ^ x.toNat)) else .error .valueError
      | none, none => .error .assertionError := by
  have hN := run_of_given C (givenInts C "N") Val.ints "N" (run_ints C "N" (Or.inr rfl)) ops
  have hM := run_of_given C (givenInts C "M") Val.ints "M" (run_ints C "M" (Or.inl rfl)) ops
  rcases h1 : lastGiven (givenInts C "N") ops with _ | n <;> rcases h2 : lastGiven (givenInts C "M") ops with _ | m <;>
    simp [getAttr, getN, hN, hM, h1, h2]

/-- An operation which stores something under `dx`. -/
def Op.setsDx : Op → Prop
  | .setAttr "dx" _ => True
  | .setItem "dx" _ => True
  | _ => False

theorem history_dx (ops : List Op) (h : ∀ op ∈ ops, ¬ op.setsDx) : history C ops "dx" = none := by
  induction ops using List.reverseRecOn with
  | nil => rfl
  | append_singleton ops op ih =>
    rw [history_append]
    have ih := ih fun o ho => h o (by simp [ho])
    have hop : ¬ op.setsDx := h op (by simp)
    rcases op with ⟨k, r⟩ | ⟨k, r⟩ | k | k
    · have hk : k ≠ "dx" := fun e => hop (by subst e; trivial)
      have hne : ∀ v : Option Val, Function.update (history C ops) k v "dx" = history C ops "dx" := fun v =>
        Function.update_of_ne (Ne.symm hk) v (history C ops)
      rcases r with l | v <;> by_cases h : k = "N" ∨ k = "M" ∨ k = "L" <;>
        simp only [Op.run, setAttr, setItem, h, if_true, if_false]
      · rcases convert C k (.seq l) <;> simp [hne, ih]
      · exact ih
      · rcases convert C k (.val v) <;> simp [hne, ih]
      · simp [hne, ih]
    · have hk : k ≠ "dx" := fun e => hop (by subst e; trivial)
      have hne : ∀ v : Option Val, Function.update (history C ops) k v "dx" = history C ops "dx" := fun v =>
        Function.update_of_ne (Ne.symm hk) v (history C ops)
      simp only [Op.run, setItem]
      rcases convert C k r <;> simp [hne, ih]
    · exact ih
    · exact ih

/-- **C47** `dx * N = L`: if `L` was given (last value `l`), the mesh size is `n` with as many entries, none of them 0, and nothing was
stored under `dx`, then `dx` is readable and `dx[i] * N[i] = L[i]`. -/
theorem C47_dx (ops : List Op) (l : List ℝ) (n : List ℤ) (hdx : ∀ op ∈ ops, ¬ op.setsDx)
    (hL : lastGiven (givenReals C "L") ops = some l) (hN : getAttr C (history C ops) "N" = .ok (.ints n))
    (hlen : l.length = n.length) (h0 : ∀ k ∈ n, k ≠ 0) :
    ∃ d : List ℝ, getAttr C (history C ops) "dx" = .ok (.reals d) ∧ List.zipWith (fun x (k : ℤ) => x * (k : ℝ)) d n = l := by
  have h1 := history_dx C ops hdx
  have h2 := run_of_given C (givenReals C "L") Val.reals "L" (run_reals C) ops
  rw [hL] at h2
  have h3 : getN (history C ops) = .ok (.ints n) := by
    rcases h : history C ops "N" with _ | v
    · simpa [getAttr, h] using hN
    · have h4 : getAttr C (history C ops) "N" = .ok v := by simp [getAttr, h]
      have h5 : getN (history C ops) = .ok v := by simp [getN, h]
      rw [h5, ← h4, hN]
  refine ⟨List.zipWith (fun x k => x / (k : ℝ)) l n, by simp [getAttr, h1, h2, h3, divArr, hlen], ?_⟩
  clear hL hN h2 h3 h1
  induction l generalizing n with
  | nil => cases n <;> simp_all
  | cons x l ih =>
    cases n with
    | nil => simp at hlen
    | cons k n =>
      have hk : (k : ℝ) ≠ 0 := Int.cast_ne_zero.2 (h0 k (by simp))
      refine congrArg₂ List.cons (div_mul_cancel₀ x hk) (ih n (by simpa using hlen) fun j hj => h0 j (by simp [hj]))

/-- The five parameters which are cast on reading. -/
def physical : List String := ["nu", "dt", "Ri", "Pr", "eta"]

/-- **C47** In double precision attribute and item access agree, for every stored key (with a number under the five physical
parameters). -/
theorem C47_access (s : Store) (key : String) (v : Val) (hp : s "precision" = some (.str "double")) (hv : s key = some v)
    (hnum : key ∈ physical → ∃ x, v = .num x) : getAttr C s key = .ok v ∧ getItem s key = .ok v := by
  refine ⟨?_, by simp [getItem, hv]⟩
  by_cases hk : key = "nu" ∨ key = "dt" ∨ key = "Ri" ∨ key = "Pr" ∨ key = "eta"
  · obtain ⟨x, rfl⟩ := hnum (by simpa [physical] using hk)
    simp [getAttr, hk, hp, hv]
  · simp [getAttr, hk, hv]

/-- A history with both `M` and `N`, by attribute and by item: `N` wins, and a failing assignment changes nothing. -/
example : getAttr ⟨fun s => if s = "32" then some 32 else if s = "5" then some 5 else none, fun _ => some 1, id⟩
    (history ⟨fun s => if s = "32" then some 32 else if s = "5" then some 5 else none, fun _ => some 1, id⟩
      [.setItem "M" (.seq ["5", "5", "5"]), .setAttr "N" (.seq ["32", "32", "32"]), .setItem "N" (.seq ["32.0", "32", "32"]),
       .setItem "M" (.seq ["5", "5", "5"])]) "N" = .ok (.ints [32, 32, 32]) := by
  rw [C47_mesh_size]
  simp [lastGiven, givenInts, mapOpt]

/-! ## C48 -/

/-- **C48** Reading `nu`, `dt`, `Ri`, `Pr` or `eta` as an attribute: the single precision rounding of the stored value in single
precision, the stored value in double precision. -/
theorem C48_cast (s : Store) (key : String) (hk : key ∈ physical) (x : ℝ) (hx : s key = some (.num x)) :
    (s "precision" = some (.str "single") → getAttr C s key = .ok (.num (C.float32 x))) ∧
    (s "precision" = some (.str "double") → getAttr C s key = .ok (.num x)) := by
  have hk' : key = "nu" ∨ key = "dt" ∨ key = "Ri" ∨ key = "Pr" ∨ key = "eta" := by simpa [physical] using hk
  exact ⟨fun hp => by simp [getAttr, hk', hp, hx], fun hp => by simp [getAttr, hk', hp, hx]⟩

/-- Reading operations. -/
def Op.isRead : Op → Bool
  | .getAttr _ => true
  | .getItem _ => true
  | _ => false

/-- **C48** Reads, wherever they occur in a history, do not change what is stored. -/
theorem C48_reads (ops : List Op) : history C ops = history C (ops.filter fun o => !o.isRead) := by
  unfold history
  generalize (fun _ => none : Store) = s
  induction ops generalizing s with
  | nil => rfl
  | cons op ops ih =>
    rcases op with ⟨k, r⟩ | ⟨k, r⟩ | k | k
    · rw [List.filter_cons_of_pos (by rfl), List.foldl_cons, List.foldl_cons, ih]
    · rw [List.filter_cons_of_pos (by rfl), List.foldl_cons, List.foldl_cons, ih]
    · rw [List.filter_cons_of_neg (by simp [Op.isRead]), List.foldl_cons]; exact ih s
    · rw [List.filter_cons_of_neg (by simp [Op.isRead]), List.foldl_cons]; exact ih s

/-- **C48** Writing a physical parameter and reading it back, in either way, with anything done to other keys in between. -/
theorem C48_round_trip (s : Store) (key : String) (hk : key ∈ physical) (x : ℝ) (s' : Store)
    (h : setAttr C s key (.val (.num x)) = .ok s' ∨ setItem C s key (.val (.num x)) = .ok s') :
    getItem s' key = .ok (.num x) ∧ (s "precision" = some (.str "single") → getAttr C s' key = .ok (.num (C.float32 x))) ∧
    (s "precision" = some (.str "double") → getAttr C s' key = .ok (.num x)) := by
  have hs' : s' = Function.update s key (some (.num x)) := by
    simp only [physical, List.mem_cons, List.not_mem_nil, or_false] at hk
    rcases hk with rfl | rfl | rfl | rfl | rfl <;> simpa [setAttr, setItem, convert, eq_comm] using h
  have hp : "precision" ≠ key := by
    rintro rfl
    simp [physical] at hk
  subst hs'
  have h2 : Function.update s key (some (Val.num x)) "precision" = s "precision" := Function.update_of_ne hp _ _
  refine ⟨by simp [getItem], fun h => ?_, fun h => ?_⟩
  · exact (C48_cast C _ key hk x (by simp)).1 (h2.trans h)
  · exact (C48_cast C _ key hk x (by simp)).2 (h2.trans h)

example : getAttr ⟨fun _ => none, fun _ => none, fun x => x + 1⟩
    (fun k => if k = "precision" then some (.str "single") else if k = "nu" then some (.num 2) else none) "nu"
      = .ok (.num (2 + 1)) := by
  simp [getAttr]

end SpectralDNS.Config

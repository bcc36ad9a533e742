import Mathlib.Data.List.Basic

/-! # Vocabulary for the profile -/

namespace SpectralDNS.Spec.Profile

variable {I K : Type*}

/-- The first entry of the list that matches the function. -/
def Owner (m : I → K → Bool) (items : List I) (item : I) (k : K) : Prop := items.find? (fun i => m i k) = some item

/-- No two recorded functions have the same first match. -/
def Clear (m : I → K → Bool) (items : List I) (stats : List K) : Prop :=
  ∀ k ∈ stats, ∀ k' ∈ stats, ∀ item, Owner m items item k → Owner m items item k' → k = k'

/-- The name `s` of a function is looked for as `item`: it is `item`, or contains `method 'item'` or `.item`. -/
def Matches (item s : String) : Prop := s = item ∨ ("method '" ++ item ++ "'").toList <:+: s.toList ∨ ("." ++ item).toList <:+: s.toList

end SpectralDNS.Spec.Profile

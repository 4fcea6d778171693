import Verif.Spec.Reparse

/-!
# Vocabulary for documents with the same `Value`
-/

namespace Miniserde

/-- No object of the tree has the same key twice. -/
inductive Json.NoDup : Json → Prop
  | null : Json.NoDup .null
  | bool (b : Bool) : Json.NoDup (.bool b)
  | str (s : Bytes) : Json.NoDup (.str s)
  | num (l : NumLit) : Json.NoDup (.num l)
  | arr {xs : List Json} (h : ∀ x ∈ xs, Json.NoDup x) : Json.NoDup (.arr xs)
  | obj {ms : List (Bytes × Json)} (hk : (ms.map Prod.fst).Nodup) (h : ∀ m ∈ ms, Json.NoDup m.2) : Json.NoDup (.obj ms)

/-- What is asked of the program's own types: distinct field names, ordered keys with a lawful `Ord`, and no two texts that a key type
reads as the same key (true of `String`; false of integers: `"1"` and `"01"`). -/
structure Env.KeysFaithful (E : Env) : Prop where
  fieldNames : ∀ i, ((E.fields i).map Prod.fst).Nodup
  order : ∀ k, StrictLinear (E.keyLt k)
  inj : ∀ k a b x, E.keyParse k a = some x → E.keyParse k b = some x → a = b

end Miniserde

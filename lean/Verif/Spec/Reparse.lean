import Verif.Spec.RoundTrip

/-!
# Vocabulary for reparsing a `Value`
-/

namespace Miniserde

/-- The value contains no `Number::F64`. -/
inductive Val.FloatFree : Val → Prop
  | null : Val.FloatFree .null
  | bool (b : Bool) : Val.FloatFree (.bool b)
  | str (s : Bytes) : Val.FloatFree (.str s)
  | numU (n : Nat) : Val.FloatFree (.numU n)
  | numI (z : Int) : Val.FloatFree (.numI z)
  | seq {vs : List Val} (h : ∀ v ∈ vs, Val.FloatFree v) : Val.FloatFree (.seq vs)
  | map {ms : List (Bytes × Val)} (h : ∀ m ∈ ms, Val.FloatFree m.2) : Val.FloatFree (.map ms)

mutual

/-- The value with every non-negative `Number::I64` replaced by the `Number::U64` of the same value. -/
def Val.canon : Val → Val
  | .numI z => if z < 0 then .numI z else .numU z.toNat
  | .seq vs => .seq (canons vs)
  | .map ms => .map (canonMembers ms)
  | v => v

/-- Element by element. -/
def canons : List Val → List Val
  | [] => []
  | v :: vs => v.canon :: canons vs

/-- Member by member. -/
def canonMembers : List (Bytes × Val) → List (Bytes × Val)
  | [] => []
  | (k, v) :: ms => (k, v.canon) :: canonMembers ms

end

/-- Every `Number::I64` in the value is negative. -/
inductive Val.Normal : Val → Prop
  | null : Val.Normal .null
  | bool (b : Bool) : Val.Normal (.bool b)
  | str (s : Bytes) : Val.Normal (.str s)
  | numU (n : Nat) : Val.Normal (.numU n)
  | numI {z : Int} (h : z < 0) : Val.Normal (.numI z)
  | seq {vs : List Val} (h : ∀ v ∈ vs, Val.Normal v) : Val.Normal (.seq vs)
  | map {ms : List (Bytes × Val)} (h : ∀ m ∈ ms, Val.Normal m.2) : Val.Normal (.map ms)

/-- Every number literal of the tree is an integer literal in range; `-0` does not occur. -/
inductive Json.IntsOnly : Json → Prop
  | null : Json.IntsOnly .null
  | bool (b : Bool) : Json.IntsOnly (.bool b)
  | str (s : Bytes) : Json.IntsOnly (.str s)
  | num {l : NumLit} (hf : l.frac = none) (he : l.exp = none)
      (hr : if l.minus then 0 < digitsVal l.int ∧ digitsVal l.int ≤ 2 ^ 63 else digitsVal l.int ≤ 2 ^ 64 - 1) : Json.IntsOnly (.num l)
  | arr {xs : List Json} (h : ∀ x ∈ xs, Json.IntsOnly x) : Json.IntsOnly (.arr xs)
  | obj {ms : List (Bytes × Json)} (h : ∀ m ∈ ms, Json.IntsOnly m.2) : Json.IntsOnly (.obj ms)

/-- Every number literal of the tree is an integer literal in range; `-0` may occur. -/
inductive Json.Integers : Json → Prop
  | null : Json.Integers .null
  | bool (b : Bool) : Json.Integers (.bool b)
  | str (s : Bytes) : Json.Integers (.str s)
  | num {l : NumLit} (hf : l.frac = none) (he : l.exp = none) (hr : digitsVal l.int ≤ (if l.minus then 2 ^ 63 else 2 ^ 64 - 1)) :
      Json.Integers (.num l)
  | arr {xs : List Json} (h : ∀ x ∈ xs, Json.Integers x) : Json.Integers (.arr xs)
  | obj {ms : List (Bytes × Json)} (h : ∀ m ∈ ms, Json.Integers m.2) : Json.Integers (.obj ms)

end Miniserde

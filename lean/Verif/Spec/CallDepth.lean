import Verif.Spec.Api

/-!
# How deep values and texts are nested
-/

namespace Miniserde

mutual

/-- Levels of nesting of a `Value`: a scalar or an empty container has one. -/
def Val.levels : Val → Nat
  | .seq vs => 1 + Val.levelsAll vs
  | .map ms => 1 + Val.levelsEntries ms
  | _ => 1

/-- The largest number of levels in a list. -/
def Val.levelsAll : List Val → Nat
  | [] => 0
  | v :: vs => max v.levels (Val.levelsAll vs)

def Val.levelsEntries : List (Bytes × Val) → Nat
  | [] => 0
  | (_, v) :: ms => max v.levels (Val.levelsEntries ms)

end

mutual

/-- Levels of nesting of a JSON tree. -/
def Json.levels : Json → Nat
  | .arr xs => 1 + Json.levelsAll xs
  | .obj ms => 1 + Json.levelsMembers ms
  | _ => 1

def Json.levelsAll : List Json → Nat
  | [] => 0
  | x :: xs => max x.levels (Json.levelsAll xs)

def Json.levelsMembers : List (Bytes × Json) → Nat
  | [] => 0
  | (_, x) :: ms => max x.levels (Json.levelsMembers ms)

end

end Miniserde

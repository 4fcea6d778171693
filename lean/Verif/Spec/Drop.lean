import Verif.Model.Drop

/-!
# What a value owns
-/

namespace Miniserde

mutual

/-- The heap objects a value owns. -/
def DNode.owns : DNode → List Nat
  | .scalar i => [i]
  | .array i xs => i :: ownsAll xs
  | .object i ms => i :: ownsEntries ms

/-- ... of all elements -/
def ownsAll : List DNode → List Nat
  | [] => []
  | x :: xs => x.owns ++ ownsAll xs

/-- ... of all entries, with the keys -/
def ownsEntries : List (Nat × DNode) → List Nat
  | [] => []
  | (k, x) :: ms => k :: x.owns ++ ownsEntries ms

end

/-- ... of a value, if there is one -/
def ownsOpt : Option DNode → List Nat
  | some v => v.owns
  | none => []

/-- ... of a layer of the deserializer's stack: the box, the array or object read so far, a key without value, and the last element or value -/
def DLayer.owns : DLayer → List Nat
  | .seq b i xs el => b :: i :: ownsAll xs ++ ownsOpt el
  | .map b i ms key v => b :: i :: ownsEntries ms ++ (key.elim [] fun k => [k]) ++ ownsOpt v

/-- ... of all layers -/
def ownsLayers : List DLayer → List Nat
  | [] => []
  | l :: st => l.owns ++ ownsLayers st

/-- How deeply a value is nested. -/
def DNode.nest : Nat → DNode
  | 0 => .scalar 0
  | n + 1 => .array (n + 1) [DNode.nest n]

end Miniserde

import Verif.Model.Visitors
import Verif.Model.Drop

/-!
# Dropping values of arbitrary types

The compiler's drop glue calls the glue of what a value contains, one after the other.  Only `Array` and `Object` (and with them `Value`) have a `Drop` of their own, which
does not recurse (`Model/Drop.lean`).
-/

namespace Miniserde

mutual

/-- A `Value` (`src/json/value.rs:29-37`) as its destructor sees it.  All heap objects get the same label: the labels play no role for the calls. -/
def Val.dnode : Val → DNode
  | .seq vs => .array 0 (Val.dnodes vs)
  | .map ms => .object 0 (Val.dentries ms)
  | _ => .scalar 0

/-- The elements of an `Array` (`src/json/array.rs:15-17`). -/
def Val.dnodes : List Val → List DNode
  | [] => []
  | v :: vs => v.dnode :: Val.dnodes vs

/-- The entries of an `Object` (`src/json/object.rs:16-19`). -/
def Val.dentries : List (Bytes × Val) → List (Nat × DNode)
  | [] => []
  | (_, v) :: ms => (0, v.dnode) :: Val.dentries ms

end

/-- Dropping the value `v` of type `t` never has more than `d` calls active at once.
* `Value`, `Array`, `Object`: `src/json/drop.rs:4-27`, `src/json/array.rs:19-23`, `src/json/object.rs:21-27`, as in `Model/Drop.lean`
* `Box`, `Option`, `Vec`, `[T; N]`, pairs, maps (the containers of `src/de/impls.rs:159-676`) and derived structs (`derive/src/de.rs:36-115`): drop glue, one call for the
  value and, inside it, one after the other, those for its parts; calls inside `alloc` and `std` (dropping a slice, freeing memory, iterating over a map) are not counted
* everything else owns at most a string: one call
(The last case also covers values that are not of the type; they do not exist in a Rust program.) -/
def DropFits (E : Env) : Nat → Ty → Val → Prop
  | d, .value, v => ∀ n, (DState.run n ⟨[.value v.dnode], []⟩).calls.length ≤ d
  | d, .array, .seq vs => ∀ n, (DState.run n ⟨[.array 0 (Val.dnodes vs)], []⟩).calls.length ≤ d
  | d, .object, .map ms => ∀ n, (DState.run n ⟨[.object 0 (Val.dentries ms)], []⟩).calls.length ≤ d
  | 0, _, _ => False
  | d + 1, .box t, .box v => DropFits E d t v
  | d + 1, .opt t, .optSome v => DropFits E d t v
  | d + 1, .tup a b, .seq [x, y] => DropFits E d a x ∧ DropFits E d b y
  | d + 1, .vec t, .seq vs => ∀ v ∈ vs, DropFits E d t v
  | d + 1, .arr t _, .seq vs => ∀ v ∈ vs, DropFits E d t v
  | d + 1, .hmap _ t, .map ms => ∀ m ∈ ms, DropFits E d t m.2
  | d + 1, .bmap _ t, .map ms => ∀ m ∈ ms, DropFits E d t m.2
  | d + 1, .strct i, .strct vs => ∀ (j : Nat) (f : Bytes × Ty) (v : Val), (E.fields i)[j]? = some f → vs[j]? = some v → DropFits E d f.2 v
  | _ + 1, _, _ => True

end Miniserde

import Verif.Model.Types
import Verif.Model.Ser

/-!
# `Display` and `Debug`

`Debug` is modelled for `{:?}` (not `{:#?}`).  `core`'s `debug_list`, `debug_map` are modelled by their documented output `[a, b]`, `{k: v, k: v}`; the
`Debug` of `str` is a parameter.  Recursion replaces the recursion of the Rust code (`Debug` is recursive there, unlike the rest of the library).
-/

namespace Miniserde

/-- `ryu::Buffer::format` on any float: `format_finite` (the parameter) on the finite ones (documented; the crate is not modelled). Used in `src/json/number.rs:14-22`. -/
def ryuFormat (ryu : F64 → Bytes) : F64 → Bytes
  | .nan => str! "NaN"
  | .inf true => str! "-inf"
  | .inf false => str! "inf"
  | x => ryu x

/-- `src/json/number.rs:14-22` `impl Display for Number`. -/
def displayNumber (ryu : F64 → Bytes) : Val → Bytes
  | .numU n => decimal n
  | .numI n => decimalInt n
  | .numF n => ryuFormat ryu n
  | _ => []

section
variable (ryu : F64 → Bytes) (strDebug : Bytes → Bytes)

mutual

/-- `src/json/value.rs:46-57` `impl Debug for Value`, with `src/json/array.rs:100-105` and `src/json/object.rs:94-99`. -/
def debugValue : Val → Bytes
  | .null => str! "Null"
  | .bool b => str! "Bool(" ++ (if b then str! "true" else str! "false") ++ str! ")"
  | .numU n => str! "Number(" ++ displayNumber ryu (.numU n) ++ str! ")"
  | .numI n => str! "Number(" ++ displayNumber ryu (.numI n) ++ str! ")"
  | .numF n => str! "Number(" ++ displayNumber ryu (.numF n) ++ str! ")"
  | .str s => str! "String(" ++ strDebug s ++ str! ")"
  | .seq vs => str! "Array [" ++ debugList true vs ++ str! "]"
  | .map ms => str! "Object {" ++ debugMap true ms ++ str! "}"
  | _ => []

/-- `DebugList::entries`: `first` says that no separator is needed. `src/json/array.rs:100-105`. -/
def debugList (first : Bool) : List Val → Bytes
  | [] => []
  | v :: vs => (if first then [] else str! ", ") ++ debugValue v ++ debugList false vs

/-- `DebugMap::entries`. `src/json/object.rs:94-99`. -/
def debugMap (first : Bool) : List (Bytes × Val) → Bytes
  | [] => []
  | (k, v) :: ms => (if first then [] else str! ", ") ++ strDebug k ++ str! ": " ++ debugValue v ++ debugMap false ms

end
end

end Miniserde

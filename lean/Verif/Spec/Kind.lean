import Verif.Spec.Api

/-!
# JSON kinds
-/

namespace Miniserde

/-- The six kinds of JSON values. -/
inductive Kind where
  | null | boolean | number | string | array | object
  deriving DecidableEq, Repr

/-- The kind of a tree. -/
def Json.kind : Json → Kind
  | .null => .null
  | .bool _ => .boolean
  | .num _ => .number
  | .str _ => .string
  | .arr _ => .array
  | .obj _ => .object

/-- The kinds of JSON values a type can be read from. -/
def Ty.kinds : Ty → List Kind
  | .unit => [.null]
  | .bool => [.boolean]
  | .int _ _ | .f32 | .f64 | .number => [.number]
  | .string | .enm _ => [.string]
  | .vec _ | .arr _ _ | .tup _ _ | .array => [.array]
  | .hmap _ _ | .bmap _ _ | .object | .strct _ => [.object]
  | .value => [.null, .boolean, .number, .string, .array, .object]
  | .box t => t.kinds
  | .opt t => .null :: t.kinds

/-- The kind announced by the first significant byte of a text. -/
def startKind (c : UInt8) : Option Kind :=
  if c = 0x6E then some .null
  else if c = 0x74 ∨ c = 0x66 then some .boolean
  else if c = 0x2D ∨ IsDigit c then some .number
  else if c = 0x22 then some .string
  else if c = 0x5B then some .array
  else if c = 0x7B then some .object
  else none

end Miniserde

import Verif.Model.Types

/-!
# What `{:?}` of a `Value` should say
-/

namespace Miniserde

/-- Items separated by a comma and a space. -/
def commaSep : List Bytes → Bytes
  | [] => []
  | [x] => x
  | x :: y :: r => x ++ (str! ", ") ++ commaSep (y :: r)

mutual

/-- `DebugOf num quote v t`: `t` is the text of the value `v`, when numbers are written by `num` and strings by `quote`. -/
inductive DebugOf (num : Val → Bytes) (quote : Bytes → Bytes) : Val → Bytes → Prop
  | null : DebugOf num quote .null (str! "Null")
  | true : DebugOf num quote (.bool true) (str! "Bool(true)")
  | false : DebugOf num quote (.bool false) (str! "Bool(false)")
  | num {v : Val} (h : (∃ n, v = .numU n) ∨ (∃ z, v = .numI z) ∨ ∃ x, v = .numF x) :
      DebugOf num quote v ((str! "Number(") ++ num v ++ str! ")")
  | str (s : Bytes) : DebugOf num quote (.str s) ((str! "String(") ++ quote s ++ str! ")")
  | arr {vs : List Val} {ts : List Bytes} (h : DebugItems num quote vs ts) :
      DebugOf num quote (.seq vs) ((str! "Array [") ++ commaSep ts ++ str! "]")
  | obj {ms : List (Bytes × Val)} {ts : List Bytes} (h : DebugMembers num quote ms ts) :
      DebugOf num quote (.map ms) ((str! "Object {") ++ commaSep ts ++ str! "}")

/-- The texts of the elements of an array. -/
inductive DebugItems (num : Val → Bytes) (quote : Bytes → Bytes) : List Val → List Bytes → Prop
  | nil : DebugItems num quote [] []
  | cons {v t vs ts} (h : DebugOf num quote v t) (hs : DebugItems num quote vs ts) : DebugItems num quote (v :: vs) (t :: ts)

/-- The texts of the members of an object: `key: value`. -/
inductive DebugMembers (num : Val → Bytes) (quote : Bytes → Bytes) : List (Bytes × Val) → List Bytes → Prop
  | nil : DebugMembers num quote [] []
  | cons {k v t ms ts} (h : DebugOf num quote v t) (hs : DebugMembers num quote ms ts) :
      DebugMembers num quote ((k, v) :: ms) ((quote k ++ (str! ": ") ++ t) :: ts)

end

end Miniserde

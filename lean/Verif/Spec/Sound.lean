import Verif.Spec.FloatVal

/-!
# Vocabulary for type soundness of `from_str`
-/

namespace Miniserde

/-- Every `f64` inside the value is finite (`f32`s may be infinite). -/
inductive Val.Finite : Val → Prop
  | null : Val.Finite .null
  | bool (b : Bool) : Val.Finite (.bool b)
  | int (z : Int) : Val.Finite (.int z)
  | f32 (x : F32) : Val.Finite (.f32 x)
  | f64 {x : F64} (h : x.isFinite = true) : Val.Finite (.f64 x)
  | numU (n : Nat) : Val.Finite (.numU n)
  | numI (z : Int) : Val.Finite (.numI z)
  | numF {x : F64} (h : x.isFinite = true) : Val.Finite (.numF x)
  | str (s : Bytes) : Val.Finite (.str s)
  | seq {vs : List Val} (h : ∀ v ∈ vs, Val.Finite v) : Val.Finite (.seq vs)
  | map {ms : List (Bytes × Val)} (h : ∀ m ∈ ms, Val.Finite m.2) : Val.Finite (.map ms)
  | optNone : Val.Finite .optNone
  | optSome {v : Val} (h : Val.Finite v) : Val.Finite (.optSome v)
  | box {v : Val} (h : Val.Finite v) : Val.Finite (.box v)
  | strct {vs : List Val} (h : ∀ v ∈ vs, Val.Finite v) : Val.Finite (.strct vs)
  | enm (i : Nat) : Val.Finite (.enm i)

/-- The integer types in the type are at most 64 bits wide (derived structs are looked at in `Env.Lawful`). -/
def Ty.Small : Ty → Prop
  | .int _ bits => bits ≤ 64
  | .box t | .opt t | .vec t | .arr t _ | .hmap _ t | .bmap _ t => t.Small
  | .tup a b => a.Small ∧ b.Small
  | _ => True

/-- What the program's own types have to promise: `Ord` of key types is a strict linear order, `ToString` of keys
yields Rust strings; the integer types in derived structs are machine integers. -/
structure Env.Lawful (E : Env) : Prop where
  keyLt : ∀ k, StrictLinear (E.keyLt k)
  keyShow : ∀ k s a, ValidUtf8 s → E.keyParse k s = some a → ValidUtf8 (E.keyShow k a)
  small : ∀ i f, f ∈ E.fields i → f.2.Small

/-- Strings and keys of the tree are UTF-8. -/
inductive Json.Utf8 : Json → Prop
  | null : Json.Utf8 .null
  | bool (b : Bool) : Json.Utf8 (.bool b)
  | num (l : NumLit) : Json.Utf8 (.num l)
  | str {s : Bytes} (h : ValidUtf8 s) : Json.Utf8 (.str s)
  | arr {xs : List Json} (h : ∀ x ∈ xs, Json.Utf8 x) : Json.Utf8 (.arr xs)
  | obj {ms : List (Bytes × Json)} (hk : ∀ m ∈ ms, ValidUtf8 m.1) (h : ∀ m ∈ ms, Json.Utf8 m.2) : Json.Utf8 (.obj ms)

end Miniserde

import Verif.Model.Types
import Verif.Spec.Number

/-!
# Decoding a JSON tree at a type

The specification of typed deserialization, by recursion on the tree and the type.  It knows nothing of visitors, builders, places or
the order of calls.  `Types.lean` provides only the vocabulary: types, values, and insertion into maps.
-/

namespace Miniserde

/-- The order of `String` keys: lexicographic on bytes (Lean's own order on lists). -/
def strLt (a b : Bytes) : Bool := decide (a < b)

/-- The `null` literal. -/
def Json.isNull : Json → Bool
  | .null => true
  | _ => false

mutual

/-- No number literal of the tree is out of range: each one is delivered. -/
def representable : Json → Bool
  | .num l => (numEvent l).isOk
  | .arr xs => representables xs
  | .obj ms => representableMembers ms
  | _ => true

/-- All elements are representable. -/
def representables : List Json → Bool
  | [] => true
  | x :: xs => representable x && representables xs

/-- All member values are representable. -/
def representableMembers : List (Bytes × Json) → Bool
  | [] => true
  | (_, x) :: ms => representable x && representableMembers ms

end

/-- A delivered number at a numeric type (or `Number`, `Value`). -/
def decodeNum : Event → Ty → Option Val
  | .negative n, .int signed bits => if signed = true ∧ -2 ^ (bits - 1) ≤ n then some (.int n) else none
  | .nonnegative n, .int true bits => if (n : Int) ≤ 2 ^ (bits - 1) - 1 then some (.int n) else none
  | .nonnegative n, .int false bits => if (n : Int) ≤ 2 ^ bits - 1 then some (.int n) else none
  | .negative n, .f32 => some (.f32 (Flt.ofInt binary32 n))
  | .nonnegative n, .f32 => some (.f32 (Flt.ofNat binary32 n))
  | .float x, .f32 => some (.f32 (x.cast binary32))
  | .negative n, .f64 => some (.f64 (Flt.ofInt binary64 n))
  | .nonnegative n, .f64 => some (.f64 (Flt.ofNat binary64 n))
  | .float x, .f64 => some (.f64 x)
  | .negative n, .number | .negative n, .value => some (.numI n)
  | .nonnegative n, .number | .nonnegative n, .value => some (.numU n)
  | .float x, .number | .float x, .value => some (.numF x)
  | _, _ => none

/-- A scalar at a type. -/
def decodeScalar (E : Env) : Json → Ty → Option Val
  | .null, .unit | .null, .value => some .null
  | .bool b, .bool | .bool b, .value => some (.bool b)
  | .str s, .string | .str s, .value => some (.str s)
  | .str s, .enm i => ((E.variants i).findIdx? (· == s)).map .enm
  | .num l, t => match numEvent l with | .ok ev => decodeNum ev t | _ => none
  | _, _ => none

/-- The position of the field a key stands for: the first field with that name. -/
def fieldIdx (fields : List (Bytes × Ty)) (k : Bytes) : Option Nat := fields.findIdx? (fun f => f.1 == k)

/-- The value of field number `i` of type `t`, given the decoded members `ms` (field number and value): that of its last occurrence; if
there is none, `None` for an `Option` type. -/
def fieldValue (ms : List (Nat × Val)) (i : Nat) (t : Ty) : Option Val :=
  match ms.reverse.lookup i with
  | some v => some v
  | none => match t with
    | .opt _ => some .optNone
    | _ => none

/-- The values of the fields from number `i` on. -/
def fieldValues (ms : List (Nat × Val)) : Nat → List (Bytes × Ty) → Option (List Val)
  | _, [] => some []
  | i, (_, t) :: fs => (fieldValue ms i t).bind fun v => (fieldValues ms (i + 1) fs).map (v :: ·)

mutual

/-- Decode the tree `j` at type `t`. -/
def decode (E : Env) (j : Json) (t : Ty) : Option Val :=
  match t with
  | .opt t => if j.isNull then some .optNone else (decode E j t).map .optSome
  | .box t => (decode E j t).map .box
  | t =>
    match j with
    | .arr xs =>
      match t with
      | .vec t => (decodeAll E xs t).map .seq
      | .array | .value => (decodeAll E xs .value).map .seq
      | .arr t n => if xs.length = n then (decodeAll E xs t).map .seq else none
      | .tup a b =>
        match xs with
        | [x, y] => (decode E x a).bind fun v => (decode E y b).map fun u => .seq [v, u]
        | _ => none
      | _ => none
    | .obj ms =>
      match t with
      | .hmap k t => (decodeEntries E (E.keyParse k) t ms).map fun kvs =>
          .map (kvs.foldl (fun m kv => hashInsert kv.1 kv.2 m) [])
      | .bmap k t => (decodeEntries E (E.keyParse k) t ms).map fun kvs =>
          .map (kvs.foldl (fun m kv => btreeInsert (E.keyLt k) kv.1 kv.2 m) [])
      | .object | .value => (decodeEntries E some .value ms).map fun kvs =>
          .map (kvs.foldl (fun m kv => btreeInsert strLt kv.1 kv.2 m) [])
      | .strct i => (decodeFields E (E.fields i) ms).bind fun ivs => (fieldValues ivs 0 (E.fields i)).map .strct
      | _ => none
    | j => decodeScalar E j t
termination_by (sizeOf j, sizeOf t)

/-- Decode every element at type `t`. -/
def decodeAll (E : Env) (xs : List Json) (t : Ty) : Option (List Val) :=
  match xs with
  | [] => some []
  | x :: xs => (decode E x t).bind fun v => (decodeAll E xs t).map (v :: ·)
termination_by (sizeOf xs, 0)

/-- Decode every member: keys by `parse`, values at type `t`. -/
def decodeEntries (E : Env) (parse : Bytes → Option Bytes) (t : Ty) (ms : List (Bytes × Json)) : Option (List (Bytes × Val)) :=
  match ms with
  | [] => some []
  | (k, x) :: ms => (parse k).bind fun k' => (decode E x t).bind fun v => (decodeEntries E parse t ms).map ((k', v) :: ·)
termination_by (sizeOf ms, 0)

/-- Decode the members of an object at a struct: each known member at the type of its field; an unknown one is skipped,
but its numbers must be representable. -/
def decodeFields (E : Env) (fields : List (Bytes × Ty)) (ms : List (Bytes × Json)) : Option (List (Nat × Val)) :=
  match ms with
  | [] => some []
  | (k, x) :: ms =>
    match fieldIdx fields k with
    | some i =>
      match fields[i]? with
      | some f => (decode E x f.2).bind fun v => (decodeFields E fields ms).map ((i, v) :: ·)
      | none => none
    | none => if representable x then decodeFields E fields ms else none
termination_by (sizeOf ms, 0)

end

end Miniserde

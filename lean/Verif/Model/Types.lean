import Verif.Model.Lexer

/-!
# Target types and their values

The Rust types that implement `Deserialize`/`Serialize` in the library or through the derive macros, and their values.
-/

namespace Miniserde

/-- Types with a library implementation of `Deserialize` (`src/de/impls.rs:18-676`, `src/json/{value,number,array,object}.rs`)
or a derived one (`derive/src/de.rs`).  `int signed bits` covers `i8..i64`, `u8..u64`, `isize`, `usize` (the latter two are
`bits = 32` or `64`).  Key types, derived structs and derived enums are named by an index into the environment
`Env`; each instantiation of a generic struct has its own index. -/
inductive Ty where
  | unit
  | bool
  | string
  | int (signed : Bool) (bits : Nat)
  | f32
  | f64
  | number
  | value
  | array
  | object
  | box (t : Ty)
  | opt (t : Ty)
  | tup (a b : Ty)
  | vec (t : Ty)
  | arr (t : Ty) (n : Nat)
  | hmap (k : Nat) (t : Ty)
  | bmap (k : Nat) (t : Ty)
  | strct (i : Nat)
  | enm (i : Nat)
  deriving DecidableEq, Repr

/-- What the user's program defines: derived structs (`derive/src/de.rs:36-115`) by the serialized names and the types of their
fields, in declaration order; derived enums (`derive/src/de.rs:117-176`) by the serialized names of their variants;
key types by `FromStr`, `Ord` and `ToString`.  Simplification: values of a key type are represented by byte strings, one per
equivalence class of `Eq`; `FromStr::from_str`, `Ord::cmp`, `ToString::to_string` do not panic. -/
structure Env where
  fields : Nat → List (Bytes × Ty)
  variants : Nat → List Bytes
  keyParse : Nat → Bytes → Option Bytes
  keyLt : Nat → Bytes → Bytes → Bool
  keyShow : Nat → Bytes → Bytes

/-- Values, untyped: the type is known from the context.
`null` is `()` and `Value::Null`; `bool`, `str` are also `Value::Bool`, `Value::String`; `numU`, `numI`, `numF` are
the variants of `Number` (`src/json/number.rs:8-12`), also inside `Value`; `seq` is `Vec`, `Array`, `[T; N]`, a pair,
`Value::Array`; `map` is `HashMap`, `BTreeMap`, `Object`, `Value::Object`, as an association list without repeated keys (sorted for
the ordered maps). -/
inductive Val where
  | null
  | bool (b : Bool)
  | int (z : Int)
  | f32 (x : F32)
  | f64 (x : F64)
  | numU (n : Nat)
  | numI (z : Int)
  | numF (x : F64)
  | str (s : Bytes)
  | seq (vs : List Val)
  | map (ms : List (Bytes × Val))
  | optNone
  | optSome (v : Val)
  | box (v : Val)
  | strct (vs : List Val)
  | enm (i : Nat)
  deriving Repr

/-- `<$ty>::MIN` of an integer type. `src/de/impls.rs:71`. -/
def intMin (signed : Bool) (bits : Nat) : Int := if signed then -2 ^ (bits - 1) else 0

/-- `<$ty>::MAX` of an integer type. `src/de/impls.rs:80,108`. -/
def intMax (signed : Bool) (bits : Nat) : Int := if signed then 2 ^ (bits - 1) - 1 else 2 ^ bits - 1

/-- `z as $ty` of an integer `z` for an integer type: the low bits, reinterpreted (`src/de/impls.rs:72`, `:81`, `:109`). -/
def asInt (signed : Bool) (bits : Nat) (z : Int) : Int :=
  if signed then (z + 2 ^ (bits - 1)) % (2 * 2 ^ (bits - 1)) - 2 ^ (bits - 1) else z % 2 ^ bits

/-- Rust's `Ord for str`/`String`: lexicographic on bytes. Keys of `src/json/object.rs:15-19`. -/
def bytesLt : Bytes → Bytes → Bool
  | _, [] => false
  | [], _ :: _ => true
  | a :: as, c :: cs => if a < c then true else if c < a then false else bytesLt as cs

/-- `HashMap::insert`, on an association list in unspecified order. `src/de/impls.rs:580`. -/
def hashInsert (k : Bytes) (v : α) : List (Bytes × α) → List (Bytes × α)
  | [] => [(k, v)]
  | (k', v') :: r => if k' = k then (k', v) :: r else (k', v') :: hashInsert k v r

/-- `BTreeMap::insert`, on a sorted association list. `src/de/impls.rs:648`, `src/json/object.rs:139-144`. -/
def btreeInsert (lt : Bytes → Bytes → Bool) (k : Bytes) (v : α) : List (Bytes × α) → List (Bytes × α)
  | [] => [(k, v)]
  | (k', v') :: r =>
    if lt k k' then (k, v) :: (k', v') :: r
    else if lt k' k then (k', v') :: btreeInsert lt k v r
    else (k', v) :: r

end Miniserde

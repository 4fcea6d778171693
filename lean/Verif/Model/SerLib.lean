import Verif.Model.Ser
import Verif.Model.Types

/-!
# The library's and the derived implementations of `Serialize`

Models `src/ser/impls.rs`, the `Serialize` implementations in `src/json/{value,number,array,object}.rs`, and `derive/src/ser.rs`.
A value reference is a pair of a type and a value.  A boxed stream is a cell of an explicit heap: `begin` allocates it, `next` reads and updates
it, dropping the box frees it.  Touching a cell that is not live sets the flag `fault`.

`&T`, `Box<T>` and `Cow<T>` have the same body `(**self).begin()` (`src/ser/impls.rs:81-97, 111-118`) and are all
modelled by `Ty.box`; `str` and `String` (`:27-37`), and `[T]`, `[T; N]`, `Vec<T>` (`:152-177`), coincide likewise.
-/

namespace Miniserde

/-- The stream types. `src/ser/impls.rs:126-142,187-198,219-229,239-253`, `src/json/object.rs:103-112`, `derive/src/ser.rs:65-86`. -/
inductive Stream where
  /-- `src/ser/impls.rs:219` `struct SliceStream(slice::Iter)`: the elements not yet produced. -/
  | slice (t : Ty) (rest : List Val)
  /-- `src/ser/impls.rs:126-130` `struct TupleStream { first, second, state }`. -/
  | tuple (a b : Ty) (first second : Val) (state : Nat)
  /-- `src/ser/impls.rs:187, 239-242` `struct HashMapStream(hash_map::Iter)`, `struct BTreeMapStream(btree_map::Iter)` for key type
  number `k`. -/
  | map (k : Nat) (t : Ty) (rest : List (Bytes × Val))
  /-- `src/json/object.rs:103` `struct ObjectIter(btree_map::Iter<String, Value>)`. -/
  | object (rest : List (Bytes × Val))
  /-- `derive/src/ser.rs:65-68` `struct __Map { data, state }`. -/
  | strct (i : Nat) (data : List Val) (state : Nat)

/-- The heap of boxed streams. `src/ser/impls.rs:144,200,231,255`. -/
structure SHeap where
  next : Nat
  cells : Nat → Option Stream
  fault : Bool

namespace SHeap

/-- No stream. Before `src/json/ser.rs:56`. -/
def empty : SHeap := ⟨0, fun _ => none, false⟩

/-- `Box::new`. `src/ser/impls.rs:144,200,231,255`. -/
def alloc (s : Stream) (h : SHeap) : Nat × SHeap :=
  (h.next, { h with next := h.next + 1, cells := fun n => if n = h.next then some s else h.cells n })

/-- Overwrite a live cell. `src/ser/impls.rs:135,195,226,250`. -/
def set (q : Nat) (s : Stream) (h : SHeap) : SHeap := { h with cells := fun n => if n = q then some s else h.cells n }

/-- Dropping a box; a box that is not live is a fault. `src/json/ser.rs:48,131`. -/
def free (q : Nat) (h : SHeap) : SHeap :=
  match h.cells q with
  | some _ => { h with cells := fun n => if n = q then none else h.cells n }
  | none => { h with fault := true }

end SHeap

/-- `Fragment::Seq(Box::new(s))`. `src/ser/impls.rs:144,231`. -/
def newSeq (s : Stream) (h : SHeap) : Option (Frag Nat Nat) × SHeap := (some (.seq (h.alloc s).1), (h.alloc s).2)

/-- `Fragment::Map(Box::new(s))`. `src/ser/impls.rs:200,255`. -/
def newMap (s : Stream) (h : SHeap) : Option (Frag Nat Nat) × SHeap := (some (.map (h.alloc s).1), (h.alloc s).2)

/-- `impl Serialize for Number`, `src/json/number.rs:24-32`; also a number inside `Value`, `src/json/value.rs:64`. -/
def beginNumber (v : Val) : Option (Frag Nat Nat) :=
  match v with
  | .numU n => some (.u64 n)
  | .numI z => some (.i64 z)
  | .numF x => some (.f64 x)
  | _ => none

/-- `Serialize::begin`.  `order n ms` is the order in which a `HashMap` with entries `ms` is iterated by the stream in cell `n`: it
may depend on the map's hasher and history, hence on the occasion.  An ill-typed pair (impossible in Rust) is a panic.
* `()`, `bool`, `str`: `src/ser/impls.rs:15-37`;
* integers `Fragment::U64(*self as u64)`, `Fragment::I64(*self as i64)`: `:39-67` (the casts are widening);
* `f32`, `f64`: `Fragment::F64(*self as f64)`, `:69-79`;
* `&T`, `Box`, `Cow`, `Option`: `:81-118`; pairs `:120-150`; slices, arrays, `Vec` `:152-177`; maps `:179-212`;
* `Value`: `src/json/value.rs:59-70`; `Array`: `src/json/array.rs:107-111`; `Object`: `src/json/object.rs:101-114`;
* derived structs `derive/src/ser.rs:56-63` and enums `:119-129`. -/
def beginVal (E : Env) (order : Nat → List (Bytes × Val) → List (Bytes × Val)) : Ty → Val → SHeap → Option (Frag Nat Nat) × SHeap
  | .box t, .box v, h => beginVal E order t v h
  | .opt _, .optNone, h => (some .null, h)
  | .opt t, .optSome v, h => beginVal E order t v h
  | .unit, .null, h => (some .null, h)
  | .bool, .bool b, h => (some (.bool b), h)
  | .string, .str s, h => (some (.str s), h)
  | .int false _, .int z, h => (some (.u64 z.toNat), h)
  | .int true _, .int z, h => (some (.i64 z), h)
  | .f32, .f32 x, h => (some (.f64 (x.cast binary64)), h)
  | .f64, .f64 x, h => (some (.f64 x), h)
  | .number, v, h => (beginNumber v, h)
  | .value, .null, h => (some .null, h)
  | .value, .bool b, h => (some (.bool b), h)
  | .value, .str s, h => (some (.str s), h)
  | .value, .seq vs, h => newSeq (.slice .value vs) h
  | .value, .map ms, h => newMap (.object ms) h
  | .value, v, h => (beginNumber v, h)
  | .array, .seq vs, h => newSeq (.slice .value vs) h
  | .object, .map ms, h => newMap (.object ms) h
  | .tup a b, .seq [x, y], h => newSeq (.tuple a b x y 0) h
  | .vec t, .seq vs, h => newSeq (.slice t vs) h
  | .arr t _, .seq vs, h => newSeq (.slice t vs) h
  | .hmap k t, .map ms, h => newMap (.map k t (order h.next ms)) h
  | .bmap k t, .map ms, h => newMap (.map k t ms) h
  | .strct i, .strct vs, h => newMap (.strct i vs 0) h
  | .enm i, .enm j, h => ((E.variants i)[j]?.map .str, h)
  | _, _, h => (none, h)

/-- `Seq::next`: `SliceStream` `src/ser/impls.rs:221-229`, `TupleStream` `:132-142`. -/
def seqNextLib (q : Nat) (h : SHeap) : Option (Option (Ty × Val)) × SHeap :=
  match h.cells q with
  | some (.slice t (v :: rest)) => (some (some (t, v)), h.set q (.slice t rest))
  | some (.slice t []) => (some none, h.set q (.slice t []))
  | some (.tuple a b x y state) =>
    let h := h.set q (.tuple a b x y (state + 1))
    if state = 0 then (some (some (a, x)), h)
    else if state = 1 then (some (some (b, y)), h)
    else (some none, h)
  | _ => (none, { h with fault := true })

/-- `Map::next`: `HashMapStream`, `BTreeMapStream` `src/ser/impls.rs:189-199, 244-254`; `ObjectIter` `src/json/object.rs:105-110`; derived
`__Map` `derive/src/ser.rs:71-83` (one match arm per field, numbered from 0). -/
def mapNextLib (E : Env) (q : Nat) (h : SHeap) : Option (Option (Bytes × (Ty × Val))) × SHeap :=
  match h.cells q with
  | some (.map k t ((key, v) :: rest)) => (some (some (E.keyShow k key, (t, v))), h.set q (.map k t rest))
  | some (.map k t []) => (some none, h.set q (.map k t []))
  | some (.object ((key, v) :: rest)) => (some (some (key, (.value, v))), h.set q (.object rest))
  | some (.object []) => (some none, h.set q (.object []))
  | some (.strct i data state) =>
    let h := h.set q (.strct i data (state + 1))
    match (E.fields i)[state]? with
    | some f =>
      match data[state]? with
      | some v => (some (some (f.1, (f.2, v))), h)
      | none => (none, h)
    | none => (some none, h)
  | _ => (none, { h with fault := true })

/-- All implementations together. `src/ser/mod.rs:117-133`, `src/ser/impls.rs:15-257`. -/
def serLib (E : Env) (order : Nat → List (Bytes × Val) → List (Bytes × Val)) : SProto SHeap where
  S := Ty × Val
  Q := Nat
  M := Nat
  begin s h := beginVal E order s.1 s.2 h
  seqNext := seqNextLib
  mapNext := mapNextLib E
  dropSeq := SHeap.free
  dropMap := SHeap.free

end Miniserde

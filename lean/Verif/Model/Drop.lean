/-!
# Dropping a `Value`

An explicit call stack: every frame is one active call (of drop glue, of `Drop::drop` or of `safely`) together with the data it still has to
process.  Rust's drop glue of a type with a `Drop` impl calls `Drop::drop` first and then drops the fields.

Simplifications: every heap object (string, array buffer, map key, map) is a label, and freeing it is logged; calls to library iterators
(`drain`, `for_each`, `into_iter`, `BTreeMap` internals) are not frames of their own: they add a constant number of frames to the frame they
are called from.  A `BTreeMap` is a list of entries in key order.
-/

namespace Miniserde

/-- A `json::Value` (`src/json/value.rs:29-37`) seen by its destructor: scalars (with their string, if any), arrays and objects.
The labels stand for the heap objects. -/
inductive DNode where
  | scalar (id : Nat)
  | array (id : Nat) (elems : List DNode)
  | object (id : Nat) (entries : List (Nat × DNode))

/-- `Vec::drain(..)`: what is handed out and what is left in the vector. `src/json/array.rs:19-23`. -/
def drainAll (xs : List DNode) : List DNode × List DNode := (xs, [])

/-- `mem::take` on a map: what is handed out and what is left behind. `src/json/object.rs:21-27`. -/
def takeAll (ms : List (Nat × DNode)) : List (Nat × DNode) × List (Nat × DNode) := (ms, [])

/-- A layer of the deserializer's stack, when a `Value` is being read (`src/json/de.rs:46-49` `enum Layer`): a boxed builder of `src/json/value.rs`.
`box` is the heap object of the `Box<dyn Seq>` or `Box<dyn Map>`. -/
inductive DLayer where
  /-- `src/json/value.rs:125-129` `struct ArrayBuilder { out, array, element }` (also `src/json/array.rs:127-131`) -/
  | seq (box id : Nat) (array : List DNode) (element : Option DNode)
  /-- `src/json/value.rs:152-157` `struct ObjectBuilder { out, object, key, value }` (also `src/json/object.rs:131-136`) -/
  | map (box id : Nat) (object : List (Nat × DNode)) (key : Option Nat) (value : Option DNode)

/-- One active call. Of `src/json/drop.rs:4-27`, `src/json/array.rs:19-23`, `src/json/object.rs:21-27`, `src/json/de.rs:51-58`. -/
inductive DFrame where
  /-- a call that only has to return -/
  | ret
  /-- drop glue of a `Value` -/
  | value (v : DNode)
  /-- drop glue of an `Array`: `Drop::drop`, then the field `inner` -/
  | array (id : Nat) (inner : List DNode)
  /-- drop glue of an `Object` -/
  | object (id : Nat) (inner : List (Nat × DNode))
  /-- drop glue of what `Array::drop` left in `inner: Vec<Value>` -/
  | innerVec (id : Nat) (left : List DNode)
  /-- drop glue of what `Object::drop` left in `inner: BTreeMap<String, Value>` -/
  | innerMap (id : Nat) (left : List (Nat × DNode))
  /-- `src/json/array.rs:19-23` `Array::drop`, inside `for_each`, with the elements still to come -/
  | arrayDrop (drained : List DNode)
  /-- `src/json/object.rs:21-27` `Object::drop`, inside the loop -/
  | objectDrop (id : Nat) (taken : List (Nat × DNode))
  /-- `src/json/drop.rs:4` `safely`, on entry -/
  | safely (v : DNode)
  /-- `src/json/drop.rs:12` the `while let`, top of the stack first -/
  | loop (stack : List DNode)
  /-- `src/json/drop.rs:15-17` the `for child in vec` -/
  | forVec (stack : List DNode) (id : Nat) (iter : List DNode)
  /-- `src/json/drop.rs:20-22` the `for (_, child) in map` -/
  | forMap (stack : List DNode) (id : Nat) (iter : List (Nat × DNode))
  /-- drop glue of the `vec::IntoIter<Value>` returned by `Array::into_iter`, with the elements not yet taken -/
  | vecIter (id : Nat) (rest : List DNode)
  /-- drop glue of the `btree_map::IntoIter<String, Value>` returned by `Object::into_iter` -/
  | mapIter (id : Nat) (rest : List (Nat × DNode))
  /-- drop glue of an `Option<Value>` -/
  | optValue (v : Option DNode)
  /-- drop glue of the fields of a builder -/
  | builder (l : DLayer)
  /-- ... after the field `array` -/
  | seqRest (element : Option DNode)
  /-- ... after the field `object` -/
  | mapRest (key : Option Nat) (value : Option DNode)
  /-- `src/ptr.rs:53-61` `NonuniqueBox::drop`, called by the drop glue of a `Layer` -/
  | layer (l : DLayer)
  /-- ... when the contents of the box have been dropped -/
  | freeBox (box : Nat)
  /-- `src/json/de.rs:51-58` `Deserializer::drop`, in the loop, top of the stack first -/
  | popLayers (stack : List DLayer)
  /-- drop glue of the `Deserializer`: `Drop::drop`, then the fields `buffer` and `stack` -/
  | deserializer (buffer stackId : Nat) (stack : List DLayer)
  /-- ... after `Drop::drop` -/
  | deFields (buffer stackId : Nat) (stack : List DLayer)
  /-- `src/json/de.rs:30-37` `from_str`, returning early because of an error: the `Deserializer` (a local of `from_str_impl`) is dropped, then `out` -/
  | fromStrErr (buffer stackId : Nat) (stack : List DLayer) (out : Option DNode)

/-- The heap object of a key, if there is one. `key: Option<String>`, `src/json/object.rs:134`. -/
def keyLabel : Option Nat → List Nat
  | some k => [k]
  | none => []

/-- The call stack (innermost call first) and the labels freed so far. The program state of `src/json/drop.rs:4-27` and its callers. -/
structure DState where
  calls : List DFrame
  freed : List Nat

/-- One step of execution. `src/json/drop.rs:4-27`, `src/json/array.rs:19-23`, `src/json/object.rs:21-27`, `src/json/de.rs:51-58`, and drop glue. -/
def DState.step (s : DState) : DState :=
  match s.calls with
  | [] => s
  | f :: k =>
    match f with
    | .ret => ⟨k, s.freed⟩
    -- drop glue of the enum: scalars own at most a string
    | .value (.scalar i) => ⟨k, s.freed ++ [i]⟩
    | .value (.array i xs) => ⟨.array i xs :: .ret :: k, s.freed⟩
    | .value (.object i ms) => ⟨.object i ms :: .ret :: k, s.freed⟩
    -- array.rs:19-23: `self.inner.drain(..).for_each(drop::safely)`
    | .array i xs => ⟨.arrayDrop (drainAll xs).1 :: .innerVec i (drainAll xs).2 :: k, s.freed⟩
    | .arrayDrop [] => ⟨k, s.freed⟩
    | .arrayDrop (x :: xs) => ⟨.safely x :: .arrayDrop xs :: k, s.freed⟩
    | .innerVec i [] => ⟨k, s.freed ++ [i]⟩
    | .innerVec i (x :: xs) => ⟨.value x :: .innerVec i xs :: k, s.freed⟩
    -- object.rs:21-27: `for (_, child) in mem::take(&mut self.inner) { drop::safely(child); }`; the key is dropped, the taken map is freed at the
    -- end of the loop; the empty map left behind owns nothing
    | .object i ms => ⟨.objectDrop i (takeAll ms).1 :: .innerMap i (takeAll ms).2 :: k, s.freed⟩
    | .objectDrop i [] => ⟨k, s.freed ++ [i]⟩
    | .objectDrop i ((key, x) :: ms) => ⟨.safely x :: .objectDrop i ms :: k, s.freed ++ [key]⟩
    | .innerMap _ [] => ⟨k, s.freed⟩
    | .innerMap i ((key, x) :: ms) => ⟨.value x :: .innerMap i ms :: k, s.freed ++ [key]⟩
    -- drop.rs:5-8: return at once for scalars (the parameter is dropped on return)
    | .safely (.scalar i) => ⟨.value (.scalar i) :: .ret :: k, s.freed⟩
    -- drop.rs:10-11: `stack.push(value)`
    | .safely v => ⟨.loop [v] :: k, s.freed⟩
    -- drop.rs:12-25
    | .loop [] => ⟨k, s.freed⟩
    | .loop (.array i xs :: st) => ⟨.forVec st i xs :: k, s.freed⟩
    | .loop (.object i ms :: st) => ⟨.forMap st i ms :: k, s.freed⟩
    | .loop (.scalar i :: st) => ⟨.value (.scalar i) :: .loop st :: k, s.freed⟩
    -- `into_iter` (array.rs:25-28, 64-66) reads the vector out of a `ManuallyDrop`, so `Array::drop` is not run; the exhausted iterator frees the buffer
    | .forVec st i (x :: xs) => ⟨.forVec (x :: st) i xs :: k, s.freed⟩
    | .forVec st i [] => ⟨.loop st :: k, s.freed ++ [i]⟩
    | .forMap st i ((key, x) :: ms) => ⟨.forMap (x :: st) i ms :: k, s.freed ++ [key]⟩
    | .forMap st i [] => ⟨.loop st :: k, s.freed ++ [i]⟩
    -- an iterator given up early: the rest is dropped by ordinary glue, then the buffer is freed
    | .vecIter i [] => ⟨k, s.freed ++ [i]⟩
    | .vecIter i (x :: xs) => ⟨.value x :: .vecIter i xs :: k, s.freed⟩
    | .mapIter i [] => ⟨k, s.freed ++ [i]⟩
    | .mapIter i ((key, x) :: ms) => ⟨.value x :: .mapIter i ms :: k, s.freed ++ [key]⟩
    | .optValue none => ⟨k, s.freed⟩
    | .optValue (some v) => ⟨.value v :: .ret :: k, s.freed⟩
    -- fields are dropped in declaration order
    | .builder (.seq _ i xs el) => ⟨.array i xs :: .seqRest el :: k, s.freed⟩
    | .builder (.map _ i ms key v) => ⟨.object i ms :: .mapRest key v :: k, s.freed⟩
    | .seqRest el => ⟨.optValue el :: .ret :: k, s.freed⟩
    | .mapRest key v => ⟨.optValue v :: .ret :: k, s.freed ++ keyLabel key⟩
    -- ptr.rs: `let _ = unsafe { Box::from_raw(ptr) }`
    | .layer (.seq b i xs el) => ⟨.builder (.seq b i xs el) :: .freeBox b :: k, s.freed⟩
    | .layer (.map b i ms key v) => ⟨.builder (.map b i ms key v) :: .freeBox b :: k, s.freed⟩
    | .freeBox b => ⟨k, s.freed ++ [b]⟩
    -- de.rs: `while !self.stack.is_empty() { self.stack.pop(); }`
    | .popLayers [] => ⟨k, s.freed⟩
    | .popLayers (l :: st) => ⟨.layer l :: .popLayers st :: k, s.freed⟩
    | .deserializer b i st => ⟨.popLayers st :: .deFields b i [] :: k, s.freed⟩
    | .deFields b i [] => ⟨k, s.freed ++ [b, i]⟩
    | .deFields b i (l :: st) => ⟨.layer l :: .deFields b i st :: k, s.freed⟩
    | .fromStrErr b i st out => ⟨.deserializer b i st :: .optValue out :: k, s.freed⟩

/-- `n` steps. Runs `src/json/drop.rs:4-27`. -/
def DState.run : Nat → DState → DState
  | 0, s => s
  | n + 1, s => run n s.step

end Miniserde

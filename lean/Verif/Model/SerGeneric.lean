import Verif.Model.Ser

/-!
# Serializing library containers of user-defined types

`Model/SerLib.lean` models the `Serialize` impls of the library for types built from the library's own types and derived ones.  The impls for `&T`, `Box<T>`, `Option<T>`, slices, pairs,
maps and derived structs are generic.  This file models values built from them and from values of user-defined types, nested in any way: a user-defined `Serialize` may stream library
containers, which contain values of user-defined types, and so on.
-/

namespace Miniserde

/-- A reference to a value, `&dyn Serialize`.  `U` are references to values of user-defined types, `K` map keys of user-defined types. `src/ser/mod.rs:117-119`; the constructors: `src/ser/impls.rs:15-212`. -/
inductive SRef (U K : Type) where
  /-- a value of a user-defined type -/
  | user (u : U)
  /-- `()`, `bool`, strings, numbers: `src/ser/impls.rs:15-79` -/
  | leaf (f : Frag Empty Empty)
  /-- `Option<T>`: `src/ser/impls.rs:99-109` -/
  | none
  | some (r : SRef U K)
  /-- `&T`, `Box<T>`, `Cow<T>`: `src/ser/impls.rs:81-97, 111-118` -/
  | ref (r : SRef U K)
  /-- `(A, B)`: `src/ser/impls.rs:120-150` -/
  | pair (a b : SRef U K)
  /-- `[T]`, `[T; N]`, `Vec<T>`: `src/ser/impls.rs:152-177` -/
  | slice (rs : List (SRef U K))
  /-- `HashMap<K, T>`, `BTreeMap<K, T>` with their entries in iteration order: `src/ser/impls.rs:179-212` -/
  | map (ms : List (K × SRef U K))
  /-- a derived struct with its fields: `derive/src/ser.rs:56-83` -/
  | strct (fs : List (Bytes × SRef U K))

/-- The boxed streams of the library. `src/ser/impls.rs:126-142,187-198,219-229,239-253`, `src/json/object.rs:101-114`. -/
inductive LStream (U K : Type) where
  /-- `src/ser/impls.rs:219` `struct SliceStream(slice::Iter)`: the elements not yet produced -/
  | slice (rest : List (SRef U K))
  /-- `src/ser/impls.rs:126-130` `struct TupleStream { first, second, state }` -/
  | pair (first second : SRef U K) (state : Nat)
  /-- `src/ser/impls.rs:187, 239-242` `struct HashMapStream(hash_map::Iter)`, `struct BTreeMapStream(btree_map::Iter)` -/
  | map (rest : List (K × SRef U K))
  /-- `derive/src/ser.rs:65-68` `struct __Map { data, state }` -/
  | strct (fields : List (Bytes × SRef U K)) (state : Nat)

/-- What a user-defined `begin` may return: a fragment of its own making, or the fragment a library container returned from its `begin` (the body `self.0.begin()`). `src/ser/mod.rs:103-112`. -/
inductive UFrag (U K Q M : Type) where
  | own (f : Frag Q M)
  | seq (s : LStream U K)
  | map (s : LStream U K)

/-- User-defined implementations of `Serialize`, `ser::Seq`, `ser::Map` (`src/ser/mod.rs:117-133`) and of `ToString` for map keys, with a state `σ` of their own.  As in `SProto`, a result
`none` in the first component is a panic. -/
structure UserSer (σ : Type) where
  U : Type
  K : Type
  Q : Type
  M : Type
  begin : U → σ → Option (UFrag U K Q M) × σ
  seqNext : Q → σ → Option (Option (SRef U K)) × σ
  mapNext : M → σ → Option (Option (Bytes × SRef U K)) × σ
  dropSeq : Q → σ → σ
  dropMap : M → σ → σ
  toStr : K → σ → Option Bytes × σ

/-- The library's boxed streams.  A box is never used again after it was dropped (C36), so dropping one leaves its cell as it is. `src/ser/impls.rs:144,200,231,255`. -/
structure LHeap (U K : Type) where
  next : Nat
  cell : Nat → Option (LStream U K)

/-- `Box::new`. `src/ser/impls.rs:144,200,231,255`. -/
def LHeap.alloc {U K : Type} (h : LHeap U K) (s : LStream U K) : LHeap U K := ⟨h.next + 1, fun n => if n = h.next then some s else h.cell n⟩

/-- Overwrite a cell. `src/ser/impls.rs:135,195,226,250`. -/
def LHeap.set {U K : Type} (h : LHeap U K) (n : Nat) (s : LStream U K) : LHeap U K := ⟨h.next, fun m => if m = n then some s else h.cell m⟩

/-- A `Box<dyn Seq>` or `Box<dyn Map>`: of a user-defined type, or the library's in cell `n`. `src/ser/mod.rs:121-133`. -/
inductive LBox (B : Type) where
  | user (b : B)
  | lib (n : Nat)

section
variable {σ : Type} (W : UserSer σ)

/-- A fragment without streams. `src/ser/mod.rs:103-112`. -/
def Frag.ofLeaf {Q M : Type} : Frag Empty Empty → Frag Q M
  | .null => .null
  | .bool b => .bool b
  | .str s => .str s
  | .u64 n => .u64 n
  | .i64 z => .i64 z
  | .f64 x => .f64 x
  | .seq q => q.elim
  | .map m => m.elim

/-- A fragment with user-defined streams. `src/ser/mod.rs:103-112`. -/
def Frag.ofUser {Q M : Type} : Frag Q M → Frag (LBox Q) (LBox M)
  | .null => .null
  | .bool b => .bool b
  | .str s => .str s
  | .u64 n => .u64 n
  | .i64 z => .i64 z
  | .f64 x => .f64 x
  | .seq q => .seq (.user q)
  | .map m => .map (.user m)

/-- The world: the user's state and the library's streams. State of `src/json/ser.rs:53-134` outside the serializer. -/
abbrev UserSer.World := σ × LHeap W.U W.K

/-- `Fragment::Seq(Box::new(s))`. `src/ser/impls.rs:144,231`. -/
def UserSer.newSeq (s : LStream W.U W.K) (w : W.World) : Option (Frag (LBox W.Q) (LBox W.M)) × W.World := (some (.seq (.lib w.2.next)), (w.1, w.2.alloc s))

/-- `Fragment::Map(Box::new(s))`. `src/ser/impls.rs:200,255`. -/
def UserSer.newMap (s : LStream W.U W.K) (w : W.World) : Option (Frag (LBox W.Q) (LBox W.M)) × W.World := (some (.map (.lib w.2.next)), (w.1, w.2.alloc s))

/-- `Serialize::begin`; see `SRef` for the places in the source. `src/ser/impls.rs:15-212`. -/
def UserSer.beginRef : SRef W.U W.K → W.World → Option (Frag (LBox W.Q) (LBox W.M)) × W.World
  | .user u, w =>
    match W.begin u w.1 with
    | (some (.own f), s) => (some f.ofUser, (s, w.2))
    | (some (.seq st), s) => W.newSeq st (s, w.2)
    | (some (.map st), s) => W.newMap st (s, w.2)
    | (none, s) => (none, (s, w.2))
  | .leaf f, w => (some f.ofLeaf, w)
  | .none, w => (some .null, w)
  | .some r, w => beginRef r w
  | .ref r, w => beginRef r w
  | .pair a b, w => W.newSeq (.pair a b 0) w
  | .slice rs, w => W.newSeq (.slice rs) w
  | .map ms, w => W.newMap (.map ms) w
  | .strct fs, w => W.newMap (.strct fs 0) w

/-- `Seq::next` of the library's streams: `src/ser/impls.rs:132-142, 221-229`.  No other stream is a `Seq` (a panic in the model, impossible in Rust). -/
def UserSer.libSeqNext (n : Nat) (w : W.World) : Option (Option (SRef W.U W.K)) × W.World :=
  match w.2.cell n with
  | some (.slice (r :: rest)) => (some (some r), (w.1, w.2.set n (.slice rest)))
  | some (.slice []) => (some none, w)
  | some (.pair a b state) =>
    (if state = 0 then some (some a) else if state = 1 then some (some b) else some none, (w.1, w.2.set n (.pair a b (state + 1))))
  | _ => (none, w)

/-- `Map::next` of the library's streams: `src/ser/impls.rs:189-199, 244-254` (the iterator advances, then `k.to_string()` is called); `derive/src/ser.rs:71-83`. -/
def UserSer.libMapNext (n : Nat) (w : W.World) : Option (Option (Bytes × SRef W.U W.K)) × W.World :=
  match w.2.cell n with
  | some (.map ((k, r) :: rest)) =>
    match W.toStr k w.1 with
    | (some key, s) => (some (some (key, r)), (s, w.2.set n (.map rest)))
    | (none, s) => (none, (s, w.2.set n (.map rest)))
  | some (.map []) => (some none, w)
  | some (.strct fs state) =>
    match fs[state]? with
    | some f => (some (some f), (w.1, w.2.set n (.strct fs (state + 1))))
    | none => (some none, (w.1, w.2.set n (.strct fs (state + 1))))
  | _ => (none, w)

/-- A call on a user-defined stream. `src/ser/mod.rs:121-133`. -/
def UserSer.lift {β : Type} (f : σ → β × σ) (w : W.World) : β × W.World := ((f w.1).1, ((f w.1).2, w.2))

/-- The library's and the user's implementations together. `src/ser/mod.rs:117-133`. -/
def UserSer.proto : SProto W.World where
  S := SRef W.U W.K
  Q := LBox W.Q
  M := LBox W.M
  begin := W.beginRef
  seqNext
    | .user q, w => W.lift (W.seqNext q) w
    | .lib n, w => W.libSeqNext n w
  mapNext
    | .user m, w => W.lift (W.mapNext m) w
    | .lib n, w => W.libMapNext n w
  dropSeq
    | .user q, w => (W.dropSeq q w.1, w.2)
    | .lib _, w => w
  dropMap
    | .user m, w => (W.dropMap m w.1, w.2)
    | .lib _, w => w

end

end Miniserde

import Verif.Model.Types
import Verif.Model.Driver

/-!
# The visitors of the library and of the derive macros

Models `src/de/impls.rs`, `src/ignore.rs`, the `Deserialize` impls of `src/json/{value,number,array,object}.rs`, `src/place.rs`,
`src/ptr.rs` and the code generated by `derive/src/de.rs`, as a `Proto` over an explicit heap.

Memory model: a heap of objects (output slots, `NonuniqueBox` slots, builders) with addresses that are never
reused.  A place `&mut Option<T>` is a pointer to a field of a live object.  The flag `fault` is sticky; it
is set by every access through a dangling or ill-typed pointer, by a double free, by reading an uninitialised array slot and by
leaking or dropping twice an array element.  Aliasing rules (Stacked/Tree Borrows), alignment and the `repr(C)`
transmute of `make_place!` (`src/place.rs:25-39`) are not modelled.
-/

namespace Miniserde

/-! ## Leaf calls -/

/-- Macros `signed!`, `unsigned!` of `src/de/impls.rs:63-126`: bounds check, then `n as $ty`. -/
def intLeaf (signed : Bool) (bits : Nat) : Event → Option Val
  | .negative n => if signed = true ∧ intMin signed bits ≤ n then some (.int (asInt signed bits n)) else none
  | .nonnegative n => if (n : Int) ≤ intMax signed bits then some (.int (asInt signed bits n)) else none
  | _ => none

/-- The leaf methods `null`, `boolean`, `string`, `negative`, `nonnegative`, `float` of the visitors that write a
complete value in one step, as the value written (`none`: the method returns `Err`, by default `src/de/mod.rs:234-261`).
* `()`, `bool`, `String`: `src/de/impls.rs:18-61`
* integers: `src/de/impls.rs:63-126`; `f32`, `f64`: `src/de/impls.rs:128-157`
* `Number`: `src/json/number.rs:34-57`; `Value`: `src/json/value.rs:72-105`
* derived enums: `derive/src/de.rs:164-173` -/
def scalarLeaf (E : Env) : Ty → Event → Option Val
  | .unit, .null => some .null
  | .bool, .bool b => some (.bool b)
  | .string, .str s => some (.str s)
  | .int s n, ev => intLeaf s n ev
  | .f32, .negative n => some (.f32 (Flt.ofInt binary32 n))
  | .f32, .nonnegative n => some (.f32 (Flt.ofNat binary32 n))
  | .f32, .float x => some (.f32 (x.cast binary32))
  | .f64, .negative n => some (.f64 (Flt.ofInt binary64 n))
  | .f64, .nonnegative n => some (.f64 (Flt.ofNat binary64 n))
  | .f64, .float x => some (.f64 x)
  | .number, .negative n => some (.numI n)
  | .number, .nonnegative n => some (.numU n)
  | .number, .float x => some (.numF x)
  | .value, .null => some .null
  | .value, .bool b => some (.bool b)
  | .value, .str s => some (.str s)
  | .value, .negative n => some (.numI n)
  | .value, .nonnegative n => some (.numU n)
  | .value, .float x => some (.numF x)
  | .enm i, .str s => ((E.variants i).findIdx? (· == s)).map .enm
  | _, _ => none

/-- The content of an `Option<Option<T>>` slot whose payload slot has content `c`. `src/de/impls.rs:316-349`. -/
def someOpt : Option Val → Option Val
  | none => some .optNone
  | some v => some (.optSome v)

/-- A leaf method of `Place<T>` on a slot with content `c`: result and new content.
`Option<T>`: `src/de/impls.rs:311-339`; `Box<T>`: `src/de/impls.rs:170-210` (a local `out = None`, then `unwrap`). -/
def leafOn (E : Env) : Ty → Event → Option Val → Res Unit × Option Val
  | .opt t, ev, _ =>
    match ev with
    | .null => (.ok (), some .optNone)
    | ev => ((leafOn E t ev none).1, someOpt (leafOn E t ev none).2)
  | .box t, ev, c =>
    match leafOn E t ev none with
    | (.ok _, some v) => (.ok (), some (.box v))
    | (.ok _, none) => (.panic, c)
    | (.err, _) => (.err, c)
    | (.panic, _) => (.panic, c)
  | t, ev, c =>
    match scalarLeaf E t ev with
    | some v => (.ok (), some v)
    | none => (.err, c)

/-! ## Builders -/

/-- Which map a map builder fills: `HashMap<K, _>`, `BTreeMap<K, _>` or `Object` (also inside `Value`). `src/de/impls.rs:540-676`, `src/json/object.rs:116-161`. -/
inductive MapKind where
  | hash (k : Nat)
  | btree (k : Nat)
  | object
  deriving DecidableEq, Repr

/-- `K::from_str` (`src/de/impls.rs:593-596`, `:660-663`) or `to_owned` (`src/json/object.rs:149`, `src/json/value.rs:170`). -/
def MapKind.parse (E : Env) : MapKind → Bytes → Option Bytes
  | .hash k, s => E.keyParse k s
  | .btree k, s => E.keyParse k s
  | .object, s => some s

/-- `self.map.insert(k, v)`. `src/de/impls.rs:580,648`, `src/json/object.rs:139-144`. -/
def MapKind.insert (E : Env) : MapKind → Bytes → Val → List (Bytes × Val) → List (Bytes × Val)
  | .hash _, k, v, m => hashInsert k v m
  | .btree i, k, v, m => btreeInsert (E.keyLt i) k v m
  | .object, k, v, m => btreeInsert bytesLt k v m

/-- The state of a builder other than `BoxSeq`/`BoxMap`, without its `out` reference.
* `vec`: `VecBuilder` (`src/de/impls.rs:431-459`), `ArrayBuilder` of `Array` (`src/json/array.rs:127-152`) and of `Value`
  (`src/json/value.rs:125-150`)
* `arr`: `ArrayBuilder` (`src/de/impls.rs:486-534`); a `MaybeUninit` slot is `none` when uninitialised or moved out
* `tup`: `TupleBuilder` (`src/de/impls.rs:377-405`)
* `map`: `MapBuilder` (`src/de/impls.rs:566-606`, `:635-672`), `ObjectBuilder` (`src/json/object.rs:131-158`,
  `src/json/value.rs:152-179`)
* `strct`: the derived `__State` (`derive/src/de.rs:84-112`) -/
inductive Core where
  | vec (t : Ty) (done : List Val) (el : Option Val)
  | arr (t : Ty) (n : Nat) (slots : List (Option Val)) (len : Nat) (el : Option Val)
  | tup (a b : Ty) (x y : Option Val)
  | map (kind : MapKind) (t : Ty) (m : List (Bytes × Val)) (key : Option Bytes) (val : Option Val)
  | strct (i : Nat) (fs : List (Option Val))
  deriving Repr

/-- `Deserialize::default()`: `Some(None)` for `Option<T>` (`src/de/impls.rs:299-302`), else `None` (`src/de/mod.rs:221-227`). -/
def Ty.default : Ty → Option Val
  | .opt _ => some .optNone
  | _ => none

/-- The builder made by `Visitor::seq` (`isMap = false`) or `Visitor::map` (`isMap = true`); `none`: the method returns
`Err` (default method, `src/de/mod.rs:263-269`). -/
def Ty.core (E : Env) : Ty → Bool → Option Core
  | .vec t, false => some (.vec t [] none)                              -- src/de/impls.rs:422-428
  | .array, false => some (.vec .value [] none)                         -- src/json/array.rs:118-124
  | .value, false => some (.vec .value [] none)                         -- src/json/value.rs:107-113
  | .arr t n, false => some (.arr t n (List.replicate n none) 0 none)   -- src/de/impls.rs:476-483
  | .tup a b, false => some (.tup a b none none)                        -- src/de/impls.rs:369-374
  | .hmap k t, true => some (.map (.hash k) t [] none none)             -- src/de/impls.rs:556-563
  | .bmap k t, true => some (.map (.btree k) t [] none none)            -- src/de/impls.rs:625-632
  | .object, true => some (.map .object .value [] none none)            -- src/json/object.rs:121-128
  | .value, true => some (.map .object .value [] none none)             -- src/json/value.rs:115-122
  | .strct i, true => some (.strct i ((E.fields i).map fun f => f.2.default))  -- derive/src/de.rs:74-81
  | _, _ => none

/-- `VecBuilder::shift` (`src/de/impls.rs:438-442`, `src/json/array.rs:134-138`, `src/json/value.rs:132-136`). -/
def shiftVec (done : List Val) : Option Val → List Val
  | some e => done ++ [e]
  | none => done

/-- `MapBuilder::shift` (`src/de/impls.rs:578-582`, `:646-650`, `src/json/object.rs:139-143`, `src/json/value.rs:160-164`). -/
def shiftMap (E : Env) (kind : MapKind) (m : List (Bytes × Val)) (key : Option Bytes) (val : Option Val) :
    List (Bytes × Val) :=
  match key, val with
  | some k, some v => kind.insert E k v m
  | _, _ => m

/-- `ArrayBuilder::shift` (`src/de/impls.rs:494-500`); on a full array the taken element is dropped and `Err` returned.
`none`: the write would leak an initialised slot. -/
def shiftArr (t : Ty) (n : Nat) (slots : List (Option Val)) (len : Nat) (el : Option Val) : Option (Res Unit × Core) :=
  match el with
  | none => some (.ok (), .arr t n slots len none)
  | some e =>
    match slots[len]? with
    | none => some (.err, .arr t n slots len none)
    | some none => some (.ok (), .arr t n (slots.set len (some e)) (len + 1) none)
    | some (some _) => none

/-- `Seq::element` (`k? = none`) or `Map::key k` (`k? = some k`) of a builder: the field whose place is handed out, with
its type, or `none` for `<dyn Visitor>::ignore()`.  The outer `none` is a fault: the method does not exist for the
builder.
* `vec`: `src/de/impls.rs:449-452`; `arr`: `:507-510`; `tup`: `:387-395`; `map`: `:591-598`, `:658-665`
* derived struct: `derive/src/de.rs:92-99` -/
def Core.child (E : Env) : Core → Option Bytes → Option (Res (Option (Nat × Ty)) × Core)
  | .vec t done el, none => some (.ok (some (0, t)), .vec t (shiftVec done el) none)
  | .arr t n slots len el, none =>
    match shiftArr t n slots len el with
    | some (.ok _, c) => some (.ok (some (0, t)), c)
    | some (_, c) => some (.err, c)
    | none => none
  | .tup a b x y, none =>
    match x, y with
    | none, y => some (.ok (some (0, a)), .tup a b none y)
    | some v, none => some (.ok (some (1, b)), .tup a b (some v) none)
    | some v, some u => some (.err, .tup a b (some v) (some u))
  | .map kind t m key val, some k =>
    match kind.parse E k with
    | some k' => some (.ok (some (0, t)), .map kind t (shiftMap E kind m key val) (some k') none)
    | none => some (.err, .map kind t (shiftMap E kind m key val) none none)
  | .strct i fs, some k =>
    match (E.fields i).findIdx? (fun f => f.1 == k) with
    | some j =>
      match (E.fields i)[j]? with
      | some f => some (.ok (some (j, f.2)), .strct i fs)
      | none => none
    | none => some (.ok none, .strct i fs)
  | _, _ => none

/-- `let f = self.f.take().ok_or(Error)?;` for each field in turn (`derive/src/de.rs:102-104`): the values if all are
present, and the fields afterwards. -/
def takeFields : List (Option Val) → Option (List Val) × List (Option Val)
  | [] => (some [], [])
  | some v :: r => ((takeFields r).1.map (v :: ·), none :: (takeFields r).2)
  | none :: r => (none, none :: r)

/-- All slots initialised: the values. `src/de/impls.rs:522`. -/
def allInit : List (Option Val) → Option (List Val)
  | [] => some []
  | some v :: r => (allInit r).map (v :: ·)
  | none :: _ => none

/-- `Seq::finish` / `Map::finish` of a builder: the value written to `out`, and the builder afterwards; `none` is a
fault (an uninitialised slot is read).
* `vec`: `src/de/impls.rs:454-458`; `arr`: `:512-525`; `tup`: `:397-404`; `map`: `:600-605`, `:667-671`
* derived struct: `derive/src/de.rs:101-111` -/
def Core.finish (E : Env) : Core → Option (Res Val × Core)
  | .vec t done el => some (.ok (.seq (shiftVec done el)), .vec t [] none)
  | .arr t n slots len el =>
    match shiftArr t n slots len el with
    | some (.ok _, .arr t n slots len el) =>
      if len < n then some (.err, .arr t n slots len el)
      else
        match allInit slots with
        | some vs => some (.ok (.seq vs), .arr t n (List.replicate n none) 0 el)
        | none => none
    | some (_, c) => some (.err, c)
    | none => none
  | .tup a b x y =>
    match x, y with
    | some v, some u => some (.ok (.seq [v, u]), .tup a b none none)
    | _, _ => some (.err, .tup a b none none)
  | .map kind t m key val => some (.ok (.map (shiftMap E kind m key val)), .map kind t [] none none)
  | .strct i fs =>
    match takeFields fs with
    | (some vs, fs) => some (.ok (.strct vs), .strct i fs)
    | (none, fs) => some (.err, .strct i fs)

/-- Content of field `f` of a builder, for the fields whose place can be handed out. `src/de/impls.rs:389,391,451,509,597,664`, `derive/src/de.rs:95`. -/
def Core.get : Core → Nat → Option (Option Val)
  | .vec _ _ el, 0 => some el
  | .arr _ _ _ _ el, 0 => some el
  | .tup _ _ x _, 0 => some x
  | .tup _ _ _ y, 1 => some y
  | .map _ _ _ _ val, 0 => some val
  | .strct _ fs, f => fs[f]?
  | _, _ => none

/-- Overwrite a field of a builder. `src/de/impls.rs:389,391,451,509,597,664`, `derive/src/de.rs:95`. -/
def Core.put : Core → Nat → Option Val → Core
  | .vec t done _, 0, c => .vec t done c
  | .arr t n slots len _, 0, c => .arr t n slots len c
  | .tup a b _ y, 0, c => .tup a b c y
  | .tup a b x _, 1, c => .tup a b x c
  | .map kind t m key _, 0, c => .map kind t m key c
  | .strct i fs, f, c => .strct i (fs.set f c)
  | core, _, _ => core

/-- Is dropping the builder correct?  `ArrayBuilder::drop` (`src/de/impls.rs:528-534`) drops the slots below `len`: they
must be initialised, and the others must not be (they would leak).  The other builders use Rust's drop glue. -/
def Core.dropOk : Core → Bool
  | .arr _ _ slots len _ => (slots.take len).all Option.isSome && (slots.drop len).all Option.isNone
  | _ => true

/-! ## The heap -/

/-- A `&mut Option<T>`: the field `field` of the object at `addr`, below `depth` `Some`s (`self.out.as_mut().unwrap()` in
`src/de/impls.rs:311-349`). -/
structure Ptr where
  addr : Nat
  field : Nat
  depth : Nat
  deriving DecidableEq, Repr

/-- `self.out.as_mut().unwrap()`. `src/de/impls.rs:318-348`. -/
def Ptr.deref (p : Ptr) : Ptr := { p with depth := p.depth + 1 }

/-- A `Box<dyn Seq>` / `Box<dyn Map>`: the zero-sized `Ignore` (`src/ignore.rs:18`) or a builder on the heap. -/
inductive BH where
  | ignore
  | at (addr : Nat)
  deriving DecidableEq, Repr

/-- Heap objects: an `Option<T>` slot (the `out` of `from_str`, or the allocation of a `NonuniqueBox<Option<T>>`), a builder, or a
`BoxSeq`/`BoxMap` (`src/de/impls.rs:233-289`; both have the same fields and code). -/
inductive Obj where
  | slot (c : Option Val)
  | builder (out : Ptr) (core : Core)
  | boxB (out : Ptr) (value : Nat) (inner : BH)
  deriving Repr

/-- Memory: the live objects. The heap used by `src/de/impls.rs:212-230,370,423,477,557,626`. -/
abbrev Mem := Nat → Option Obj

/-- Store or remove an object. Of `src/de/impls.rs:215,225`. -/
def Mem.set (m : Mem) (a : Nat) (o : Option Obj) : Mem := fun b => if b = a then o else m b

/-- The heap.  Addresses from `next` on are fresh. The heap used by `src/de/impls.rs:212-230,370,423,477,557,626`. -/
structure Heap where
  mem : Mem
  next : Nat
  fault : Bool

/-- Content of the place `depth` `Some`s below a slot with content `c`; `none`: there is no such place. `src/de/impls.rs:316-349`. -/
def readD : Nat → Option Val → Option (Option Val)
  | 0, c => some c
  | d + 1, some .optNone => readD d none
  | d + 1, some (.optSome v) => readD d (some v)
  | _ + 1, _ => none

/-- Overwrite the place `depth` `Some`s below a slot with content `c` by `new`. `src/de/impls.rs:316-349`. -/
def writeD : Nat → Option Val → Option Val → Option (Option Val)
  | 0, new, _ => some new
  | d + 1, new, some .optNone => (writeD d new none).map someOpt
  | d + 1, new, some (.optSome v) => (writeD d new (some v)).map someOpt
  | _ + 1, _, _ => none

/-- Content of a field of an object. `src/json/de.rs:34`, `src/de/impls.rs:213,233-238`. -/
def Obj.get : Obj → Nat → Option (Option Val)
  | .slot c, 0 => some c
  | .builder _ core, f => core.get f
  | _, _ => none

/-- Overwrite a field of an object. `src/json/de.rs:34`, `src/de/impls.rs:213,233-238`. -/
def Obj.put : Obj → Nat → Option Val → Obj
  | .slot _, 0, c => .slot c
  | .builder out core, f, c => .builder out (core.put f c)
  | o, _, _ => o

/-- Read through a place; `none`: dangling or ill-typed. `src/place.rs:29-35`. -/
def Mem.read (m : Mem) (p : Ptr) : Option (Option Val) :=
  ((m p.addr).bind fun o => o.get p.field).bind (readD p.depth)

/-- Write through a place; `none`: dangling or ill-typed. `src/place.rs:29-35`. -/
def Mem.write (m : Mem) (p : Ptr) (c : Option Val) : Option Mem :=
  (m p.addr).bind fun o => (o.get p.field).bind fun c0 =>
    (writeD p.depth c c0).map fun c' => m.set p.addr (some (o.put p.field c'))

namespace Heap

/-- Undefined behaviour or a leak happened. What the `unsafe` of `src/json/de.rs:62,71,159,170` and `src/de/impls.rs:214,242` must avoid. -/
def bad (h : Heap) : Heap := { h with fault := true }

/-- Store an object at a live address. Assignments to builder fields in `src/de/impls.rs:159-676`. -/
def set (h : Heap) (a : Nat) (o : Obj) : Heap := { h with mem := h.mem.set a (some o) }

/-- `Box::new`. `src/de/impls.rs:215,225,370,423,477,557,626`. -/
def alloc (h : Heap) (o : Obj) : Nat × Heap :=
  (h.next, { h with mem := h.mem.set h.next (some o), next := h.next + 1 })

/-- Deallocate, running the destructor of a builder; freeing a dead address is a fault. `src/ptr.rs:57-60`, `src/de/impls.rs:240-244,528-534`. -/
def free (h : Heap) (a : Nat) : Heap :=
  match h.mem a with
  | some (.builder _ core) => { h with mem := h.mem.set a none, fault := h.fault || !core.dropOk }
  | some _ => { h with mem := h.mem.set a none }
  | none => h.bad

/-- `*place = c`. `self.out = ...`, `src/de/impls.rs:24-669`. -/
def write (h : Heap) (p : Ptr) (c : Option Val) : Heap :=
  match h.mem.write p c with
  | some m => { h with mem := m }
  | none => h.bad

end Heap

/-! ## The protocol -/

/-- A `&mut dyn Visitor`: `<dyn Visitor>::ignore()` or a `Place<T>`. `src/ignore.rs:7-15`, `src/place.rs:29-37`. -/
inductive VH where
  | ignore
  | place (t : Ty) (p : Ptr)
  deriving DecidableEq, Repr

variable (E : Env)

/-- A leaf call.  `Ignore`: `src/ignore.rs:20-43`. -/
def leafAt (v : VH) (ev : Event) (h : Heap) : Res Unit × Heap :=
  match v with
  | .ignore => (.ok (), h)
  | .place t p =>
    match h.mem.read p with
    | some c => ((leafOn E t ev c).1, h.write p (leafOn E t ev c).2)
    | none => (.panic, h.bad)

/-- `Visitor::seq` / `Visitor::map` of `Place<T>`.  `Option<T>`: `src/de/impls.rs:341-349`; `Box<T>`: `src/de/impls.rs:212-230` (when
the inner call fails, `value` is dropped). -/
def openPlace : Ty → Ptr → Bool → Heap → Res BH × Heap
  | .opt t, p, isMap, h => openPlace t p.deref isMap (h.write p (some .optNone))
  | .box t, p, isMap, h =>
    let s := (h.alloc (.slot none)).1
    match openPlace t ⟨s, 0, 0⟩ isMap (h.alloc (.slot none)).2 with
    | (.ok q, h) => (.ok (.at (h.alloc (.boxB p s q)).1), (h.alloc (.boxB p s q)).2)
    | (.err, h) => (.err, h.free s)
    | (.panic, h) => (.panic, h.free s)
  | t, p, isMap, h =>
    match t.core E isMap with
    | some core => (.ok (.at (h.alloc (.builder p core)).1), (h.alloc (.builder p core)).2)
    | none => (.err, h)

/-- `Visitor::seq` / `Visitor::map`.  `Ignore`: `src/ignore.rs:45-51`. -/
def openV (v : VH) (isMap : Bool) (h : Heap) : Res BH × Heap :=
  match v with
  | .ignore => (.ok .ignore, h)
  | .place t p => openPlace E t p isMap h

/-- `Seq::element` (`k? = none`) / `Map::key` of the builder at `a`.  `BoxSeq`/`BoxMap` forward to the inner
builder, which was allocated earlier (`src/de/impls.rs:250-252`, `:279-281`). -/
def childAt (a : Nat) (k? : Option Bytes) (h : Heap) : Res VH × Heap :=
  match h.mem a with
  | some (.builder out core) =>
    match core.child E k? with
    | some (.ok (some (f, t)), core') => (.ok (.place t ⟨a, f, 0⟩), h.set a (.builder out core'))
    | some (.ok none, core') => (.ok .ignore, h.set a (.builder out core'))
    | some (.err, core') => (.err, h.set a (.builder out core'))
    | some (.panic, core') => (.panic, h.set a (.builder out core'))
    | none => (.panic, h.bad)
  | some (.boxB _ _ .ignore) => (.ok .ignore, h)
  | some (.boxB _ _ (.at a')) => if a' < a then childAt a' k? h else (.panic, h.bad)
  | _ => (.panic, h.bad)
termination_by a

/-- `Seq::element` / `Map::key`.  `Ignore`: `src/ignore.rs:55-57`, `:65-67`. -/
def childB (q : BH) (k? : Option Bytes) (h : Heap) : Res VH × Heap :=
  match q with
  | .ignore => (.ok .ignore, h)
  | .at a => childAt E a k? h

/-- Drop a `Box<dyn Seq>`/`Box<dyn Map>` at `a`.  `BoxSeq::drop` drops the inner builder (`src/de/impls.rs:240-244`),
then the drop glue frees `value` (`src/ptr.rs:53-61`). -/
def dropAt (a : Nat) (h : Heap) : Heap :=
  match h.mem a with
  | some (.builder _ _) => h.free a
  | some (.boxB _ value .ignore) => (h.free value).free a
  | some (.boxB _ value (.at a')) => if a' < a then ((dropAt a' h).free value).free a else h.bad
  | _ => h.bad
termination_by a

/-- Drop a `Box<dyn Seq>`/`Box<dyn Map>`. `src/ptr.rs:53-61`. -/
def dropB (q : BH) (h : Heap) : Heap :=
  match q with
  | .ignore => h
  | .at a => dropAt a h

/-- `Option::take().unwrap()` of `value` and the write to `out` in `BoxSeq::finish`, after the inner builder was
replaced by `Ignore` (`src/de/impls.rs:254-259`, `:283-288`).  Assigning to a field of a dead builder is a fault. -/
def boxFinish (a : Nat) (out : Ptr) (value : Nat) (h : Heap) : Res Unit × Heap :=
  match h.mem a with
  | none => (.panic, h.bad)
  | some _ =>
    match (h.set a (.boxB out value .ignore)).mem.read ⟨value, 0, 0⟩ with
    | some (some v) =>
      (.ok (), ((h.set a (.boxB out value .ignore)).write ⟨value, 0, 0⟩ none).write out (some (.box v)))
    | some none => (.panic, h.set a (.boxB out value .ignore))
    | none => (.panic, (h.set a (.boxB out value .ignore)).bad)

/-- `Seq::finish` / `Map::finish` of the builder at `a`. `src/de/impls.rs:254-258,283-287,397-404,454-458,512-525,600-605,667-671`, `derive/src/de.rs:101-112`. -/
def finishAt (a : Nat) (h : Heap) : Res Unit × Heap :=
  match h.mem a with
  | some (.builder out core) =>
    match core.finish E with
    | some (.ok v, core') => (.ok (), (h.set a (.builder out core')).write out (some v))
    | some (.err, core') => (.err, h.set a (.builder out core'))
    | some (.panic, core') => (.panic, h.set a (.builder out core'))
    | none => (.panic, h.bad)
  | some (.boxB out value .ignore) => boxFinish a out value h
  | some (.boxB out value (.at a')) =>
    if a' < a then
      match finishAt a' h with
      | (.ok _, h) => boxFinish a out value (dropAt a' h)
      | (.err, h) => (.err, h)
      | (.panic, h) => (.panic, h)
    else (.panic, h.bad)
  | _ => (.panic, h.bad)
termination_by a

/-- `Seq::finish` / `Map::finish`.  `Ignore`: `src/ignore.rs:59-61`, `:69-71`. -/
def finishB (q : BH) (h : Heap) : Res Unit × Heap :=
  match q with
  | .ignore => (.ok (), h)
  | .at a => finishAt E a h

/-- The library's implementation of the traits `Visitor`, `Seq`, `Map`. `src/de/mod.rs:231-286`. -/
def lib : Proto Heap where
  V := VH
  Q := BH
  M := BH
  null v := leafAt E v .null
  boolean v b := leafAt E v (.bool b)
  string v s := leafAt E v (.str s)
  negative v n := leafAt E v (.negative n)
  nonnegative v n := leafAt E v (.nonnegative n)
  float v x := leafAt E v (.float x)
  seq v := openV E v false
  map v := openV E v true
  element q := childB E q none
  seqFinish q := finishB E q
  key m k := childB E m (some k)
  mapFinish m := finishB E m
  dropSeq q := dropB q
  dropMap m := dropB m

/-- The heap with only the local `let mut out = None` of `from_str`, at address 0. `src/json/de.rs:34`. -/
def Heap.init : Heap := { mem := Mem.set (fun _ => none) 0 (some (.slot none)), next := 1, fault := false }

/-- `src/json/de.rs:30-37` `from_str::<T>`: the result and the heap when it returns (with `out` at address 0 still
present: `out.ok_or(Error)` moves the value out). -/
def fromStr (t : Ty) (j : Bytes) : Option (Res Val × Heap) :=
  (fromStrImpl (lib E) j (.place t ⟨0, 0, 0⟩) Heap.init).map fun rh =>
    match rh.1 with
    | .ok _ =>
      match rh.2.mem.read ⟨0, 0, 0⟩ with
      | some (some v) => (.ok v, rh.2.write ⟨0, 0, 0⟩ none)
      | some none => (.err, rh.2)
      | none => (.panic, rh.2.bad)
    | .err => (.err, rh.2)
    | .panic => (.panic, rh.2)

end Miniserde

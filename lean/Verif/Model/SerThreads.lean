import Verif.Model.SerLib

/-!
# `to_string` on several threads, also of the same value

`to_string` (`src/json/ser.rs:28-134`) and the library's and derived `Serialize` implementations written as *programs* of single
memory operations, and a pool of threads that execute such programs on one heap, one memory operation at a time, in any order.  The
values to be serialized are shared: any number of threads may hold references `&T` into one and the same value (this is what
`&dyn Serialize` of `src/json/ser.rs:28` and the `Sync` values of the standard library allow).  In contrast to `Model/SerLib.lean`, a stream does not
contain the values it still has to produce but *pointers* into the shared value, as in Rust, and every look at a value is a read of shared memory.

Simplifications: a single memory operation is atomic and sequentially consistent, and operates on a whole object (a value with everything it
owns is one object); addresses are not reused; the iteration order of a `HashMap` object is a function of the list of its entries (no
restriction: that list is in any order, so two maps with equal entries and different hashers can be listed differently); the output buffer `out`, the
stack of the serializer and the buffers of `itoa` and `ryu` are locals of the thread.
-/

namespace Miniserde.SerThreads

/-- One step inward: the content of a box or of `Some`, the `i`-th element, entry value or field. `src/ser/impls.rs:85-118,132-142,221-229`. -/
def child (i : Nat) : Val → Option Val
  | .box v => if i = 0 then some v else none
  | .optSome v => if i = 0 then some v else none
  | .seq vs => vs[i]?
  | .map ms => ms[i]?.map Prod.snd
  | .strct vs => vs[i]?
  | _ => none

/-- The part of a value at the end of a path. `src/ser/impls.rs:85-118`. -/
def sub : List Nat → Val → Option Val
  | [], v => some v
  | i :: path, v => (child i v).bind (sub path)

/-- A reference `&T` into the value object at `addr`. `src/ser/mod.rs:117-133`, `src/ser/impls.rs:126-130,187,219,239-242`. -/
structure VPtr where
  addr : Nat
  path : List Nat

/-- Pointer to a part: a field access, `slice::Iter::next`, a dereference. `src/ser/impls.rs:85-118,136-137,194,224,249`. -/
def VPtr.child (p : VPtr) (i : Nat) : VPtr := ⟨p.addr, p.path ++ [i]⟩

/-- The stream types, with the pointers they hold. `src/ser/impls.rs:126-142,187-198,219-229,239-253`, `src/json/object.rs:103-112`, `derive/src/ser.rs:65-86`. -/
inductive PStream where
  /-- `src/ser/impls.rs:219` `struct SliceStream(slice::Iter)`: the slice, the position and the length. -/
  | slice (t : Ty) (p : VPtr) (i n : Nat)
  /-- `src/ser/impls.rs:126-130` `struct TupleStream { first, second, state }`. -/
  | tuple (a b : Ty) (first second : VPtr) (state : Nat)
  /-- `src/ser/impls.rs:187, 239-242` `struct HashMapStream(hash_map::Iter)`, `struct BTreeMapStream(btree_map::Iter)`: the map and the positions
  of the entries still to come. -/
  | map (k : Nat) (t : Ty) (p : VPtr) (rest : List Nat)
  /-- `src/json/object.rs:103` `struct ObjectIter(btree_map::Iter<String, Value>)`. -/
  | object (p : VPtr) (rest : List Nat)
  /-- `derive/src/ser.rs:65-68` `struct __Map { data, state }`; `n` is the number of fields of the struct (in Rust, part of its type). -/
  | strct (i : Nat) (data : VPtr) (state n : Nat)

/-- What is in memory: a shared value, or a boxed stream. `src/json/ser.rs:28`, `src/ser/impls.rs:144,200,231,255`. -/
inductive SObj where
  | val (v : Val)
  | stream (s : PStream)

/-- A program of single memory operations: `ret` returns, `load` reads an object, `store` overwrites a live object, `alloc` is `Box::new`, `free` deallocates, `fault` is
an operation that is undefined behaviour. `src/ser/impls.rs:85-257`. -/
inductive SProg (α : Type) where
  | ret (x : α)
  | load (a : Nat) (k : Option SObj → SProg α)
  | store (a : Nat) (o : SObj) (k : SProg α)
  | alloc (o : SObj) (k : Nat → SProg α)
  | free (a : Nat) (k : SProg α)
  | fault (k : SProg α)

/-- Sequencing: the statements of a Rust block, one after the other. Used throughout `src/json/ser.rs:53-134`. -/
def SProg.bind {α β : Type} : SProg α → (α → SProg β) → SProg β
  | .ret x, f => f x
  | .load a k, f => .load a fun o => (k o).bind f
  | .store a o k, f => .store a o (k.bind f)
  | .alloc o k, f => .alloc o fun a => (k a).bind f
  | .free a k, f => .free a (k.bind f)
  | .fault k, f => .fault (k.bind f)

/-- The memory all threads see. `src/ser/impls.rs:144,200,231,255`. -/
structure SMem where
  mem : Nat → Option SObj
  next : Nat
  fault : Bool

/-- Change what is at one address. `src/ser/impls.rs:135,195,226,250`. -/
def SMem.put (h : SMem) (a : Nat) (o : Option SObj) : SMem := { h with mem := fun b => if b = a then o else h.mem b }

/-- Undefined behaviour has happened. `src/ser/mod.rs:117-133`. -/
def SMem.bad (h : SMem) : SMem := { h with fault := true }

/-- Execute one memory operation: the rest of the program, and the memory afterwards.  Reading, overwriting or freeing a dead object
is a fault. `src/ser/impls.rs:85-257`. -/
def SProg.step {α : Type} : SProg α → SMem → SProg α × SMem
  | .ret x, h => (.ret x, h)
  | .load a k, h =>
    match h.mem a with
    | some o => (k (some o), h)
    | none => (k none, h.bad)
  | .store a o k, h =>
    match h.mem a with
    | some _ => (k, h.put a (some o))
    | none => (k, h.bad)
  | .alloc o k, h => (k h.next, { h.put h.next (some o) with next := h.next + 1 })
  | .free a k, h =>
    match h.mem a with
    | some _ => (k, h.put a none)
    | none => (k, h.bad)
  | .fault k, h => (k, h.bad)

/-! ## `Serialize::begin`, `Seq::next`, `Map::next` -/

/-- Read through a reference `&T`; a reference that does not point to a live value is undefined behaviour. `src/ser/impls.rs:85-118`. -/
def readV {α : Type} (p : VPtr) (dflt : α) (k : Val → SProg α) : SProg α :=
  .load p.addr fun o =>
    match o with
    | some (.val v) =>
      match sub p.path v with
      | some v => k v
      | none => .fault (.ret dflt)
    | _ => .fault (.ret dflt)

/-- What `begin` returns, before the box for the stream is allocated. `src/ser/impls.rs:15-257`. -/
inductive Opened where
  | frag (f : Option (Frag Nat Nat))
  | seq (s : PStream)
  | map (s : PStream)

/-- `Serialize::begin` of the value `v` at `p`, for types other than `Box` and `Option`, clause by clause as in `beginVal`; `order ms` are the positions of the
entries `ms` of a `HashMap` in the order in which it is iterated. `src/ser/impls.rs:15-257`, `src/json/value.rs:59-70`, `src/json/number.rs:24-32`,
`src/json/array.rs:107-111`, `src/json/object.rs:101-114`, `derive/src/ser.rs:56-63,119-129`. -/
def opens (E : Env) (order : List (Bytes × Val) → List Nat) (p : VPtr) : Ty → Val → Opened
  | .unit, .null => .frag (some .null)
  | .bool, .bool b => .frag (some (.bool b))
  | .string, .str s => .frag (some (.str s))
  | .int false _, .int z => .frag (some (.u64 z.toNat))
  | .int true _, .int z => .frag (some (.i64 z))
  | .f32, .f32 x => .frag (some (.f64 (x.cast binary64)))
  | .f64, .f64 x => .frag (some (.f64 x))
  | .number, v => .frag (beginNumber v)
  | .value, .null => .frag (some .null)
  | .value, .bool b => .frag (some (.bool b))
  | .value, .str s => .frag (some (.str s))
  | .value, .seq vs => .seq (.slice .value p 0 vs.length)
  | .value, .map ms => .map (.object p (List.range ms.length))
  | .value, v => .frag (beginNumber v)
  | .array, .seq vs => .seq (.slice .value p 0 vs.length)
  | .object, .map ms => .map (.object p (List.range ms.length))
  | .tup a b, .seq [_, _] => .seq (.tuple a b (p.child 0) (p.child 1) 0)
  | .vec t, .seq vs => .seq (.slice t p 0 vs.length)
  | .arr t _, .seq vs => .seq (.slice t p 0 vs.length)
  | .hmap k t, .map ms => .map (.map k t p (order ms))
  | .bmap k t, .map ms => .map (.map k t p (List.range ms.length))
  | .strct i, .strct vs => .map (.strct i p 0 vs.length)
  | .enm i, .enm j => .frag ((E.variants i)[j]?.map .str)
  | _, _ => .frag none

/-- `Fragment::Seq(Box::new(s))`, `Fragment::Map(Box::new(s))`, or a fragment without a stream. `src/ser/impls.rs:15-79,144,200,231,255`. -/
def Opened.boxed : Opened → SProg (Option (Frag Nat Nat))
  | .frag f => .ret f
  | .seq s => .alloc (.stream s) fun a => .ret (some (.seq a))
  | .map s => .alloc (.stream s) fun a => .ret (some (.map a))

variable (E : Env) (order : List (Bytes × Val) → List Nat)

/-- `Serialize::begin` through a reference `p`: `Box`, `&T`, `Cow` and `Option` read the pointer or the discriminant and go on with the
content (`src/ser/impls.rs:81-118`), the other types read the value and may allocate a stream (`:15-79,120-257`). -/
def beginP : Ty → VPtr → SProg (Option (Frag Nat Nat))
  | .box t, p =>
    readV p none fun v =>
      match v with
      | .box _ => beginP t (p.child 0)
      | _ => .ret none
  | .opt t, p =>
    readV p none fun v =>
      match v with
      | .optNone => .ret (some .null)
      | .optSome _ => beginP t (p.child 0)
      | _ => .ret none
  | t, p =>
    readV p none fun v => (opens E order p t v).boxed

/-- `Seq::next`: `SliceStream` `src/ser/impls.rs:221-229`, `TupleStream` `:132-142`. -/
def seqNextP (a : Nat) : SProg (Option (Option (Ty × VPtr))) :=
  .load a fun o =>
    match o with
    | some (.stream (.slice t p i n)) =>
      if i < n then .store a (.stream (.slice t p (i + 1) n)) (.ret (some (some (t, p.child i)))) else .ret (some none)
    | some (.stream (.tuple ta tb x y state)) =>
      .store a (.stream (.tuple ta tb x y (state + 1)))
        (.ret (some (if state = 0 then some (ta, x) else if state = 1 then some (tb, y) else none)))
    | _ => .fault (.ret none)

/-- Read the key of the `i`-th entry of the map at `p`. `src/ser/impls.rs:194,249`, `src/json/object.rs:107`. -/
def readKey {α : Type} (p : VPtr) (i : Nat) (dflt : α) (k : Bytes → SProg α) : SProg α :=
  readV p dflt fun v =>
    match v with
    | .map ms =>
      match ms[i]? with
      | some e => k e.1
      | none => .fault (.ret dflt)
    | _ => .fault (.ret dflt)

/-- `Map::next`: `HashMapStream`, `BTreeMapStream` `src/ser/impls.rs:189-199, 244-254`; `ObjectIter` `src/json/object.rs:105-110`; derived
`__Map` `derive/src/ser.rs:71-83`. -/
def mapNextP (a : Nat) : SProg (Option (Option (Bytes × (Ty × VPtr)))) :=
  .load a fun o =>
    match o with
    | some (.stream (.map k t p (i :: rest))) =>
      .store a (.stream (.map k t p rest)) (readKey p i none fun key => .ret (some (some (E.keyShow k key, (t, p.child i)))))
    | some (.stream (.map _ _ _ [])) => .ret (some none)
    | some (.stream (.object p (i :: rest))) =>
      .store a (.stream (.object p rest)) (readKey p i none fun key => .ret (some (some (key, (.value, p.child i)))))
    | some (.stream (.object _ [])) => .ret (some none)
    | some (.stream (.strct i p state n)) =>
      .store a (.stream (.strct i p (state + 1) n))
        (.ret (match (E.fields i)[state]? with
          | some f => if state < n then some (some (f.1, (f.2, p.child state))) else none
          | none => some none))
    | _ => .fault (.ret none)

/-! ## The driver -/

/-- `src/json/ser.rs:39-42` `enum Layer`. -/
inductive PLayer where
  | seq (a : Nat)
  | map (a : Nat)

/-- The box in a layer. `src/json/ser.rs:39-42`. -/
def PLayer.addr : PLayer → Nat
  | .seq a => a
  | .map a => a

/-- `src/json/ser.rs:44-51` `impl Drop for Serializer`: pop and drop until the stack is empty. -/
def dropLayersP : List PLayer → SProg Unit
  | [] => .ret ()
  | l :: st => .free l.addr (dropLayersP st)

/-- State of the main loop `src/json/ser.rs:58-133` at its head: the locals `out`, `serializer.stack` (top first) and `fragment`. -/
structure PSt where
  out : Bytes
  stack : List PLayer
  frag : Frag Nat Nat

/-- Either the main loop goes on or `to_string_impl` has returned `out`, or panicked (`none`). `src/json/ser.rs:58-133`. -/
inductive PExit where
  | running (st : PSt)
  | finished (out : Option Bytes)

/-- A panic while the stack is `stack`. `src/json/ser.rs:44-51`. -/
def panicP (stack : List PLayer) : SProg PExit := (dropLayersP stack).bind fun _ => .ret (.finished none)

/-- `fragment = s.begin()` with the given locals, as in `beginWith`. `src/json/ser.rs:56,78,93,108,123`. -/
def beginWithP (out : Bytes) (stack : List PLayer) (s : Ty × VPtr) : SProg PExit :=
  (beginP E order s.1 s.2).bind fun f =>
    match f with
    | some f => .ret (.running ⟨out, stack, f⟩)
    | none => panicP stack

/-- `src/json/ser.rs:101-132`: the inner loop, as in `advance`. -/
def advanceP (out : Bytes) : List PLayer → SProg PExit
  | [] => .ret (.finished (some out))
  | .seq a :: stack =>
    (seqNextP a).bind fun r =>
      match r with
      | some (some next) => beginWithP E order (out ++ [b(',')]) (.seq a :: stack) next
      | some none => .free a (advanceP (out ++ [b(']')]) stack)
      | none => panicP (.seq a :: stack)
  | .map a :: stack =>
    (mapNextP E a).bind fun r =>
      match r with
      | some (some (key, next)) =>
        match escapeStr key (out ++ [b(',')]) with
        | some out => beginWithP E order (out ++ [b(':')]) (.map a :: stack) next
        | none => panicP (.map a :: stack)
      | some none => .free a (advanceP (out ++ [b('}')]) stack)
      | none => panicP (.map a :: stack)

/-- `src/json/ser.rs:58-133`: one iteration of the main loop, as in `stepS`. -/
def stepP (ryu : F64 → Bytes) (st : PSt) : SProg PExit :=
  match st.frag with
  | .null => advanceP E order (st.out ++ str! "null") st.stack
  | .bool b => advanceP E order (st.out ++ (if b then str! "true" else str! "false")) st.stack
  | .str s =>
    match escapeStr s st.out with
    | some out => advanceP E order out st.stack
    | none => panicP st.stack
  | .u64 n => advanceP E order (st.out ++ decimal n) st.stack
  | .i64 z => advanceP E order (st.out ++ decimalInt z) st.stack
  | .f64 x => advanceP E order (st.out ++ (if x.isFinite then ryu x else str! "null")) st.stack
  | .seq a =>
    (seqNextP a).bind fun r =>
      match r with
      | some (some first) => beginWithP E order (st.out ++ [b('[')]) (.seq a :: st.stack) first
      | some none => .free a (advanceP E order (st.out ++ [b('['), b(']')]) st.stack)
      | none => .free a (panicP st.stack)
  | .map a =>
    (mapNextP E a).bind fun r =>
      match r with
      | some (some (key, first)) =>
        match escapeStr key (st.out ++ [b('{')]) with
        | some out => beginWithP E order (out ++ [b(':')]) (.map a :: st.stack) first
        | none => .free a (panicP st.stack)
      | some none => .free a (advanceP E order (st.out ++ [b('{'), b('}')]) st.stack)
      | none => .free a (panicP st.stack)

/-! ## The pool -/

/-- Threads that each call `to_string` (`src/json/ser.rs:28-33`), and the memory they share. -/
structure SPool where
  threads : List (SProg PExit)
  heap : SMem

/-- The next step of a thread: its next memory operation, or, at the head of the main loop, the next iteration. `src/json/ser.rs:58-133`. -/
def threadStep (ryu : F64 → Bytes) (p : SProg PExit) (h : SMem) : SProg PExit × SMem :=
  match p with
  | .ret (.running st) => (stepP E order ryu st, h)
  | p => p.step h

/-- Thread `i` makes its next step; a thread that has returned, or does not exist, does nothing. `src/json/ser.rs:53-134`. -/
def SPool.step (ryu : F64 → Bytes) (P : SPool) (i : Nat) : SPool :=
  match P.threads[i]? with
  | some p => { threads := P.threads.set i (threadStep E order ryu p P.heap).1, heap := (threadStep E order ryu p P.heap).2 }
  | none => P

/-- The scheduler picks the threads in the order `sched`. Runs of `src/json/ser.rs:53-134`. -/
def SPool.run (ryu : F64 → Bytes) (P : SPool) (sched : List Nat) : SPool := sched.foldl (SPool.step E order ryu) P

/-- The memory before the first step: the `a`-th value is at address `a`, nothing else is allocated. `src/json/ser.rs:28-33`. -/
def SMem.start (vals : List Val) : SMem := { mem := fun a => vals[a]?.map .val, next := vals.length, fault := false }

/-- The pool before the first step: for the `i`-th pair `(t, a)`, thread `i` is about to call `to_string` on a reference to the value at
address `a`, which has type `t`.  Different threads may have the same `a`. `src/json/ser.rs:28-33,53-56`. -/
def SPool.start (vals : List Val) (calls : List (Ty × Nat)) : SPool :=
  { threads := calls.map fun c => beginWithP E order [] [] (c.1, ⟨c.2, []⟩), heap := SMem.start vals }

end Miniserde.SerThreads

/-!
# The unsafe code in the builders of `[T; N]` and `Box<T>` when destructors of user types panic

Models `src/de/impls.rs:466-538` and `src/de/impls.rs:213-286` at the level of ownership: values of the user's type `T` are numbers (in order of creation), and a state says where each of them is.
`bomb l`: the destructor of value `l` panics.  Not modelled here: what the values are (`Model/Visitors.lean`).

Rust's rules: drop glue of an array or a struct goes on with the next element or field after a panic; a second panic while unwinding aborts; a `for` loop that calls a destructor is left by its panic;
an assignment drops the old value and stores the new one, also if the destructor panics; `MaybeUninit::write` and `ptr::read` drop nothing, and reading leaves the bits in place.
-/

namespace Miniserde

/-- How a call ends.  `panic` is also used for: still unwinding. Of the methods of `src/de/impls.rs:212-288,493-534`. -/
inductive Flow where
  | ok
  | err
  | panic
  | abort
  deriving DecidableEq, Repr

/-- What happened to values. Values handled by `src/de/impls.rs:233-288,486-534`. -/
structure Fate where
  /-- The destructor calls so far, latest first. -/
  dropped : List Nat
  /-- Values whose memory is gone although their destructor never ran. -/
  leaked : List Nat
  /-- Memory was misused. -/
  ub : Bool
  deriving DecidableEq, Repr

/-- Run the destructor of `l`. `src/de/impls.rs:242,521,531`. -/
def Fate.drop (d : Fate) (l : Nat) : Fate := { d with dropped := l :: d.dropped }
/-- These values are lost. `src/de/impls.rs:528-534` left early. -/
def Fate.leak (d : Fate) (ls : List Nat) : Fate := { d with leaked := ls ++ d.leaked }
/-- Misuse if `c`. The `unsafe` of `src/de/impls.rs:242,522,531`. -/
def Fate.check (d : Fate) (c : Bool) : Fate := { d with ub := d.ub || c }

/-- Drop glue for values in a row; `u`: already unwinding. After `src/de/impls.rs:244,534`: fields of `:233-238,486-491`. -/
def glueDrop (bomb : Nat → Bool) : Bool → List Nat → Fate → Flow × Fate
  | u, [], d => (if u then .panic else .ok, d)
  | u, l :: ls, d =>
    if bomb l then (if u then (.abort, (d.drop l).leak ls) else glueDrop bomb true ls (d.drop l))
    else glueDrop bomb u ls (d.drop l)

/-- A `for` loop that runs destructors: left at the first panic. `src/de/impls.rs:530-532`. -/
def loopDrop (bomb : Nat → Bool) : Bool → List Nat → Fate → Flow × Fate
  | u, [], d => (if u then .panic else .ok, d)
  | u, l :: ls, d =>
    if bomb l then (if u then .abort else .panic, (d.drop l).leak ls) else loopDrop bomb u ls (d.drop l)

/-! ## `[T; N]` -/

/-- `src/de/impls.rs:486-491` `struct ArrayBuilder` (without `out`).  A slot of `array` is `none` if it was never written. -/
structure ArrB where
  array : List (Option Nat)
  len : Nat
  element : Option Nat
  deriving DecidableEq, Repr

/-- What the code sees when it takes slots to be initialised. `src/de/impls.rs:522,531`. -/
def assumeInit (slots : List (Option Nat)) : List Nat := slots.filterMap id

/-- `src/de/impls.rs:475-484` `Visitor::seq`. -/
def ArrB.new (N : Nat) : ArrB := ⟨List.replicate N none, 0, none⟩

/-- `src/de/impls.rs:494-500` `fn shift`. -/
def ArrB.shift (bomb : Nat → Bool) (b : ArrB) (d : Fate) : Flow × ArrB × Fate :=
  match b.element with
  | none => (.ok, b, d)
  | some e =>
    match b.array[b.len]? with
    | some _ => (.ok, { element := none, array := b.array.set b.len (some e), len := b.len + 1 }, d)
    | none => (if bomb e then .panic else .err, { b with element := none }, d.drop e)

/-- `*self.out = new`. `src/de/impls.rs:257,286,521-522`. -/
def assignOut (bomb : Nat → Bool) (old : Option (List Nat)) (d : Fate) : Flow × Fate := glueDrop bomb false (old.getD []) d

/-- `src/de/impls.rs:512-525` `fn finish`. -/
def ArrB.finish (bomb : Nat → Bool) (N : Nat) (b : ArrB) (out : Option (List Nat)) (d : Fate) : Flow × ArrB × Option (List Nat) × Fate :=
  match b.shift bomb d with
  | (.ok, b, d) =>
    if b.len < N then (.err, b, out, d)
    else
      -- `*self.out = None`
      match assignOut bomb out d with
      | (.ok, d) =>
        let out : Option (List Nat) := none
        -- `*self.out = Some(read(array))`
        let d := d.check (b.array.any Option.isNone)
        match assignOut bomb out d with
        | (.ok, d) => (.ok, { b with len := 0 }, some (assumeInit b.array), d)
        | (f, d) => (f, b, some (assumeInit b.array), d)
      | (f, d) => (f, b, none, d)
  | (f, b, d) => (f, b, out, d)

/-- `src/de/impls.rs:528-534` `fn drop`, then the drop glue of the field `element`. -/
def ArrB.drop (bomb : Nat → Bool) (u : Bool) (b : ArrB) (d : Fate) : Flow × Fate :=
  let d := d.check ((b.array.take b.len).any Option.isNone || decide (b.array.length < b.len))
  match loopDrop bomb u (assumeInit (b.array.take b.len)) d with
  | (.abort, d) => (.abort, d.leak b.element.toList)
  | (f, d) => glueDrop bomb (f == .panic) b.element.toList d

/-- The world of a caller of the array builder: the place `out`, the builder that borrows it, the values the caller owns itself. `src/de/impls.rs:486-491`. -/
structure ArrMem where
  out : Option (List Nat)
  bld : Option ArrB
  pool : List Nat
  fate : Fate
  next : Nat
  /-- The process was aborted. -/
  dead : Bool
  deriving DecidableEq, Repr

/-- What a caller, with visitors of its own for `T`, can do.  Panics are caught, the caller goes on. `src/de/impls.rs:503-534`. -/
inductive ArrOp where
  /-- Make a value. -/
  | new
  /-- Drop a value it owns. -/
  | dropVal (l : Nat)
  /-- `Visitor::seq`. -/
  | start
  /-- `Seq::element`. -/
  | element
  /-- `*place = Some(l)` through the place the visitor was made of. -/
  | setElement (l : Nat)
  /-- `place.take()`. -/
  | takeElement
  /-- `Seq::finish`. -/
  | finish
  /-- Drop the builder, possibly while unwinding from a panic of its own. -/
  | dropBuilder (unwinding : Bool)
  /-- `mem::forget` the builder. -/
  | forget
  /-- When the builder is gone: take the array out of the place, put one there, or drop it. -/
  | takeOut
  | putOut (ls : List Nat)
  | dropOut
  deriving DecidableEq, Repr

/-- One operation; an operation that is not possible now does nothing. `src/de/impls.rs:476-534`. -/
def ArrMem.step (bomb : Nat → Bool) (N : Nat) (m : ArrMem) (op : ArrOp) : ArrMem :=
  if m.dead then m else
  match op, m.bld with
  | .new, _ => { m with pool := m.next :: m.pool, next := m.next + 1 }
  | .dropVal l, _ => if m.pool.contains l then { m with pool := m.pool.erase l, fate := m.fate.drop l } else m
  | .start, none => { m with bld := some (ArrB.new N) }
  | .element, some b => { m with bld := some (b.shift bomb m.fate).2.1, fate := (b.shift bomb m.fate).2.2 }
  | .setElement l, some b =>
    if m.pool.contains l then
      { m with
        pool := m.pool.erase l
        bld := some { b with element := some l }
        fate := (glueDrop bomb false b.element.toList m.fate).2 }
    else m
  | .takeElement, some b => { m with pool := b.element.toList ++ m.pool, bld := some { b with element := none } }
  | .finish, some b =>
    { m with
      bld := some (b.finish bomb N m.out m.fate).2.1
      out := (b.finish bomb N m.out m.fate).2.2.1
      fate := (b.finish bomb N m.out m.fate).2.2.2
      dead := (b.finish bomb N m.out m.fate).1 == .abort }
  | .dropBuilder u, some b => { m with bld := none, fate := (b.drop bomb u m.fate).2, dead := (b.drop bomb u m.fate).1 == .abort }
  | .forget, some b => { m with bld := none, fate := m.fate.leak (assumeInit (b.array.take b.len) ++ b.element.toList) }
  | .takeOut, none => { m with out := none, pool := m.out.getD [] ++ m.pool }
  | .putOut ls, none =>
    if m.out.isNone && ls.length == N && ls.all m.pool.contains && decide ls.Nodup then { m with out := some ls, pool := m.pool.filter fun l => !ls.contains l } else m
  | .dropOut, none => { m with out := none, fate := (assignOut bomb m.out m.fate).2, dead := (assignOut bomb m.out m.fate).1 == .abort }
  | _, _ => m

/-- Before anything has happened. Before `src/de/impls.rs:476`. -/
def ArrMem.init : ArrMem := ⟨none, none, [], ⟨[], [], false⟩, 0, false⟩

/-- A program. Calls of `src/de/impls.rs:476-534`. -/
def ArrMem.run (bomb : Nat → Bool) (N : Nat) (prog : List ArrOp) : ArrMem := prog.foldl (ArrMem.step bomb N) .init

/-! ## `Box<T>`

`BoxSeq` and `BoxMap` are the same code.  The builder of the user's type `T` that they wrap (`inner`) is arbitrary: in every call, and in its destructor, it may use the place `value` it was made of
(`acts`), and then return `Ok`, `Err` or panic. -/

/-- `src/de/impls.rs:233-238` `struct BoxSeq`, `src/de/impls.rs:262-267` `struct BoxMap` (without `out`). -/
structure BoxB where
  /-- Contents of the heap allocation. -/
  value : Option Nat
  /-- The heap allocation was freed. -/
  freed : Bool
  /-- The field `seq` (`map`) is the user's builder; otherwise it is `Ignore`. -/
  inner : Bool
  /-- The user's builder was not dropped yet. -/
  alive : Bool
  deriving DecidableEq, Repr

/-- A use of the place by user code. Through the place of `src/de/impls.rs:214,224`. -/
inductive Act where
  /-- `*place = Some(l)` -/
  | set (l : Nat)
  /-- `place.take()` -/
  | take
  deriving DecidableEq, Repr

/-- The world of a caller of the builder. `src/de/impls.rs:233-238,262-267`. -/
structure BoxMem where
  out : Option Nat
  bld : Option BoxB
  pool : List Nat
  fate : Fate
  next : Nat
  dead : Bool
  /-- Inner builders made, dropped and forgotten so far. -/
  made : Nat
  drops : Nat
  lost : Nat
  deriving DecidableEq, Repr

/-- What `acts` work on: the contents of the place, the values user code owns. `src/de/impls.rs:213-214,235`. -/
structure BoxPlace where
  value : Option Nat
  pool : List Nat
  fate : Fate

/-- User code uses the place; it is left when a destructor panics. Inside the calls of `src/de/impls.rs:218,228,242,251,255`. -/
def runActs (bomb : Nat → Bool) : List Act → BoxPlace → Flow × BoxPlace
  | [], p => (.ok, p)
  | .take :: as, p => runActs bomb as { p with value := none, pool := p.value.toList ++ p.pool }
  | .set l :: as, p =>
    if p.pool.contains l then
      match glueDrop bomb false p.value.toList p.fate with
      | (.ok, d) => runActs bomb as { value := some l, pool := p.pool.erase l, fate := d }
      | (f, d) => (f, { value := some l, pool := p.pool.erase l, fate := d })
    else runActs bomb as p

/-- The result of a call that does `acts` and then ends with `res`. `?` in `src/de/impls.rs:218,228,255,284`. -/
def Flow.then (f res : Flow) : Flow := if f = .ok then res else f

/-- A call of a method of the user's builder.  Calling it after it was dropped, or touching the place after it was freed, is misuse. `src/de/impls.rs:251,255,280,284`. -/
def innerCall (bomb : Nat → Bool) (acts : List Act) (res : Flow) (b : BoxB) (m : BoxMem) : Flow × BoxB × BoxMem :=
  let r := runActs bomb acts ⟨b.value, m.pool, m.fate.check (!b.alive || (b.freed && !acts.isEmpty))⟩
  (r.1.then res, { b with value := r.2.value }, { m with pool := r.2.pool, fate := r.2.fate })

/-- The destructor of the field `seq` (`map`); `panics`: the destructor of the user's builder panics at its end. `src/de/impls.rs:242,256,271,285`. -/
def innerDrop (bomb : Nat → Bool) (u : Bool) (acts : List Act) (panics : Bool) (b : BoxB) (m : BoxMem) : Flow × BoxB × BoxMem :=
  if b.inner then
    let r := innerCall bomb acts (if panics then .panic else .ok) b m
    (if r.1 = .ok then (if u then .panic else .ok) else if u then .abort else .panic, { r.2.1 with alive := false }, { r.2.2 with drops := r.2.2.drops + 1 })
  else (if u then .panic else .ok, b, m)

/-- Dropping the `NonuniqueBox` (`src/ptr.rs:53-61`): the contents are dropped, the allocation is freed.  The user's builder must be gone. -/
def valueDrop (bomb : Nat → Bool) (u : Bool) (b : BoxB) (m : BoxMem) : Flow × BoxB × BoxMem :=
  let r := glueDrop bomb u b.value.toList (m.fate.check (b.alive || b.freed))
  (r.1, { b with value := none, freed := true }, { m with fate := r.2 })

/-- `src/de/impls.rs:240-244, 269-273` `fn drop`, then the drop glue of the fields: only `value` has any. -/
def BoxB.drop (bomb : Nat → Bool) (u : Bool) (acts : List Act) (panics : Bool) (b : BoxB) (m : BoxMem) : Flow × BoxB × BoxMem :=
  match innerDrop bomb u acts panics b m with
  | (.abort, b, m) => (.abort, b, { m with fate := m.fate.leak b.value.toList })
  | (f, b, m) => valueDrop bomb (f == .panic) b m

/-- `src/de/impls.rs:254-259, 283-288` `fn finish`: the inner builder's `finish` does `acts` and ends with `res`, its destructor does `dacts` and panics if `panics`. -/
def BoxB.finish (bomb : Nat → Bool) (acts : List Act) (res : Flow) (dacts : List Act) (panics : Bool) (b : BoxB) (m : BoxMem) : Flow × BoxB × BoxMem :=
  match (if b.inner then innerCall bomb acts res b m else (.ok, b, m)) with
  | (.ok, b, m) =>
    -- `*self.seq = Box::new(Ignore)`
    match innerDrop bomb false dacts panics b m with
    | (.ok, b, m) =>
      let b := { b with inner := false }
      let m := { m with fate := m.fate.check (b.alive || b.freed) }
      match b.value with
      | none => (.panic, b, m)
      | some v =>
        -- `*self.out = Some(Box::new(v))`
        let b := { b with value := none }
        let r := glueDrop bomb false m.out.toList m.fate
        (r.1, b, { m with out := some v, fate := r.2 })
    | (f, b, m) => (f, { b with inner := false }, m)
  | r => r

/-- `src/de/impls.rs:213-231` `Visitor::seq`, `Visitor::map`: the user's `begin(..).seq()` does `acts` and ends with `res`. -/
def BoxMem.start (bomb : Nat → Bool) (acts : List Act) (res : Flow) (m : BoxMem) : Flow × BoxMem :=
  let r := runActs bomb acts ⟨none, m.pool, m.fate⟩
  let m := { m with pool := r.2.pool, fate := r.2.fate }
  match r.1.then res with
  | .ok => (.ok, { m with bld := some ⟨r.2.value, false, true, true⟩, made := m.made + 1 })
  | f =>
    let g := glueDrop bomb (f == .panic) r.2.value.toList m.fate
    (if g.1 = .ok then f else g.1, { m with fate := g.2 })

/-- What a caller can do. `src/de/impls.rs:212-288`. -/
inductive BoxOp where
  | new
  | dropVal (l : Nat)
  | start (acts : List Act) (res : Flow)
  /-- `element` or `key` -/
  | child (acts : List Act) (res : Flow)
  | finish (acts : List Act) (res : Flow) (dacts : List Act) (panics : Bool)
  | dropBuilder (unwinding : Bool) (dacts : List Act) (panics : Bool)
  | forget
  | takeOut
  | putOut (l : Nat)
  | dropOut
  deriving DecidableEq, Repr

/-- One operation. `src/de/impls.rs:212-288`. -/
def BoxMem.step (bomb : Nat → Bool) (m : BoxMem) (op : BoxOp) : BoxMem :=
  if m.dead then m else
  match op, m.bld with
  | .new, _ => { m with pool := m.next :: m.pool, next := m.next + 1 }
  | .dropVal l, _ => if m.pool.contains l then { m with pool := m.pool.erase l, fate := m.fate.drop l } else m
  | .start acts res, none => { (m.start bomb acts res).2 with dead := (m.start bomb acts res).1 == .abort }
  | .child acts res, some b =>
    if b.inner then { (innerCall bomb acts res b m).2.2 with bld := some (innerCall bomb acts res b m).2.1, dead := (innerCall bomb acts res b m).1 == .abort } else m
  | .finish acts res dacts panics, some b =>
    { (b.finish bomb acts res dacts panics m).2.2 with
      bld := some (b.finish bomb acts res dacts panics m).2.1
      dead := (b.finish bomb acts res dacts panics m).1 == .abort }
  | .dropBuilder u dacts panics, some b =>
    { (b.drop bomb u dacts panics m).2.2 with bld := none, dead := (b.drop bomb u dacts panics m).1 == .abort }
  | .forget, some b => { m with bld := none, fate := m.fate.leak b.value.toList, lost := m.lost + if b.alive then 1 else 0 }
  | .takeOut, none => { m with out := none, pool := m.out.toList ++ m.pool }
  | .putOut l, none => if m.out.isNone && m.pool.contains l then { m with out := some l, pool := m.pool.erase l } else m
  | .dropOut, none => { m with out := none, fate := (glueDrop bomb false m.out.toList m.fate).2 }
  | _, _ => m

/-- Before anything has happened. Before `src/de/impls.rs:212`. -/
def BoxMem.init : BoxMem := ⟨none, none, [], ⟨[], [], false⟩, 0, false, 0, 0, 0⟩

/-- A program. Calls of `src/de/impls.rs:212-288`. -/
def BoxMem.run (bomb : Nat → Bool) (prog : List BoxOp) : BoxMem := prog.foldl (BoxMem.step bomb) .init

end Miniserde

import Verif.Spec.StackedBorrows

/-!
# The pointers of the builder of `Box<T>`

Models `src/de/impls.rs:212-289` (`BoxSeq`, `BoxMap`: the same code) and `src/ptr.rs` at the level of pointers: what happens at one byte of the heap allocation `value` that the builder of the user's type `T` borrows.
The user's `Deserialize` impl for `T`, its visitors and builders, and the destructor of `T` are arbitrary safe code (`SB.safeRun`), also when they return `Err` or panic.

Every reborrow of the Rust code, including those of the standard library functions called, is there; a value of type `&mut` or `Box` that is passed to a function gets a new, protected tag, one that is returned a new tag.
Not modelled here: the contents of the place and who owns what (`Model/PanicMem.lean`), the other fields of the builder (safe code).
-/

namespace Miniserde.BoxAlias

open SB

/-- `&mut *t`. `src/de/impls.rs:214,224`, `src/ptr.rs:49`. -/
def reborrow (t : Nat) (l : Loc) : Loc × Nat := (l.act (.reborrow .unique t false), l.tag)

/-- The argument `t` of a function, at the beginning of its body. `src/ptr.rs:27,28`, `src/de/impls.rs:218,257`. -/
def argument (t : Nat) (l : Loc) : Loc × Nat := ((l.act .enter).act (.reborrow .unique t true), l.tag)

/-- The function returns (something else). `src/ptr.rs:28,31`. -/
def leave (l : Loc) : Loc := l.act .leave

/-- `NonuniqueBox::new`: `src/ptr.rs:18-20`, `From::from`: `src/ptr.rs:27-31`.  The second component is the field `ptr`. -/
def newBox : Loc × Nat :=
  -- `Box::new(value)`, whose result is retagged
  let (l, b) := reborrow 0 Loc.fresh
  -- `NonuniqueBox::from(boxed)`
  let (l, b) := argument b l
  -- `Box::into_raw(boxed)`
  let (l, b) := argument b l
  let ptr := l.tag
  let l := leave (l.act (.reborrow .sharedRW b false))
  (leave l, ptr)

/-- `NonuniqueBox::deref_mut`: `src/ptr.rs:48-50`; `NonNull::as_mut` is `&mut *self.as_ptr()`.  Results are retagged. -/
def derefMut (ptr : Nat) (l : Loc) : Loc × Nat :=
  let l := l.act .enter
  let l := l.act .enter
  let (l, t) := reborrow ptr l
  let (l, t) := reborrow t (leave l)
  reborrow t (leave l)

/-- The field `value` is moved: into the struct, and with the struct into its box.  Moving a `NonNull` (`src/ptr.rs:14`) does nothing; with `plain`, the field would be a `Box`, which is retagged and gets a new tag.
`src/de/impls.rs:215-219, 225-229`. -/
def move (plain : Bool) (x : Loc × Nat) : Loc × Nat := if plain then reborrow x.2 x.1 else x

/-- Dropping `value`: `src/ptr.rs:57-60`.  The `Box` of `from_raw` is retagged when returned; its contents are dropped in place, which is safe code `vacts` of the user's type with a protected reference;
the memory is freed, also if the destructor panics. -/
def dropBox (vacts : List Acc) (ptr : Nat) (l : Loc) : Loc :=
  let l := l.act .enter
  let (l, b) := reborrow ptr l
  let (l, b) := reborrow b (leave l)
  let x := safeRun vacts (lend b l)
  x.1.free b

/-- `Option::take` on the value: `src/de/impls.rs:257, 286`; calls `mem::replace`, which reads the old value and writes `None`. -/
def take (ptr : Nat) (l : Loc) : Loc :=
  let (l, t) := derefMut ptr l
  let (l, t) := reborrow t l
  let (l, t) := argument t l
  let (l, t) := argument t l
  leave (leave ((l.act (.read t)).act (.write t)))

/-- How a call of user code ends. Calls of `src/de/impls.rs:218,228,251,255,280,284`. -/
inductive Res where
  | ok
  | err
  | panic
  deriving DecidableEq, Repr

/-- The builder: `src/de/impls.rs:233-238, 262-267`.  `inner`: the field `seq` (`map`) is the user's builder, which knows the location as given there; otherwise it is `Ignore`. -/
structure Bld where
  loc : Loc
  ptr : Nat
  inner : Option Loc
  deriving DecidableEq, Repr

/-- User code that holds references into the place runs. `src/de/impls.rs:242,251,255,256`. -/
def Bld.user (as : List Acc) (b : Bld) : Bld :=
  match b.inner with
  | some v => { b with loc := (safeRun as (b.loc, v)).1, inner := some (safeRun as (b.loc, v)).2 }
  | none => b

/-- `src/de/impls.rs:212-220, 222-230`: the user's `begin` and `seq` (`map`) do `acts` and end with `res`.  If there is no builder, `value` is dropped. -/
def start (plain : Bool) (acts : List Acc) (res : Res) (vacts : List Acc) : Loc ⊕ Bld :=
  let (l, ptr) := newBox
  -- `&mut *value`, passed to and returned from `transmute`
  let (l, t) := derefMut ptr l
  let (l, t) := reborrow t l
  let (l, t) := argument t l
  let (l, t) := reborrow t (leave l)
  -- the field `value` is initialised before `begin(ptr)` is called
  let (l, ptr) := move plain (l, ptr)
  let (l, v) := safeRun acts (lend t l)
  if res = .ok then
    let (l, ptr) := move plain (l, ptr)
    .inr ⟨l, ptr, some v⟩
  else .inl (dropBox vacts ptr l)

/-- `src/de/impls.rs:254-259, 283-288` `fn finish`: the user's `finish` does `acts` and ends with `res`, the destructor of the user's builder does `dacts` and panics if `panics`. -/
def Bld.finish (acts : List Acc) (res : Res) (dacts : List Acc) (panics : Bool) (b : Bld) : Bld :=
  if b.inner.isSome && res != .ok then b.user acts
  else
    -- `*self.seq = Box::new(Ignore)`: the old value is dropped, the new one stored in any case
    let d := (b.user acts).user dacts
    let d := { d with inner := none }
    if b.inner.isSome && panics then d else { d with loc := take d.ptr d.loc }

/-- `src/de/impls.rs:240-244, 269-273` `fn drop`, then the drop glue of `value`.  `abort`: the destructor of the user's builder panics while unwinding, which ends the process. -/
def Bld.drop (dacts : List Acc) (abort : Bool) (vacts : List Acc) (b : Bld) : Loc :=
  let b := b.user dacts
  if abort then b.loc else dropBox vacts b.ptr b.loc

/-- What the caller of the builder can do.  Panics are caught, the caller goes on. `src/de/impls.rs:212-289`. -/
inductive BoxCall where
  | start (acts : List Acc) (res : Res) (vacts : List Acc)
  /-- `element`, `key`, and calls on the visitors they return: user code. -/
  | child (acts : List Acc)
  | finish (acts : List Acc) (res : Res) (dacts : List Acc) (panics : Bool)
  | drop (dacts : List Acc) (abort : Bool) (vacts : List Acc)
  | forget
  deriving DecidableEq, Repr

/-- A builder may exist, whose location is as given; `ub`: there was undefined behaviour at the location of an earlier one. `src/de/impls.rs:212-289`. -/
structure World where
  bld : Option Bld
  ub : Bool
  deriving DecidableEq, Repr

/-- One call. `src/de/impls.rs:212-289`. -/
def World.step (plain : Bool) (w : World) (c : BoxCall) : World :=
  match c, w.bld with
  | .start acts res vacts, none =>
    match BoxAlias.start plain acts res vacts with
    | .inl l => ⟨none, w.ub || l.ub⟩
    | .inr b => ⟨some b, w.ub⟩
  | .child acts, some b => ⟨some (b.user acts), w.ub⟩
  | .finish acts res dacts panics, some b => ⟨some (b.finish acts res dacts panics), w.ub⟩
  | .drop dacts abort vacts, some b => ⟨none, w.ub || (b.drop dacts abort vacts).ub⟩
  | .forget, some b => ⟨none, w.ub || b.loc.ub⟩
  | _, _ => w

/-- A program that uses builders of boxes. `src/de/impls.rs:212-289`. -/
def World.run (plain : Bool) (prog : List BoxCall) : World := prog.foldl (World.step plain) ⟨none, false⟩

/-- Undefined behaviour, at the location of this builder or of an earlier one. `src/de/impls.rs:212-289`. -/
def World.violated (w : World) : Bool := w.ub || (match w.bld with | some b => b.loc.ub | none => false)

end Miniserde.BoxAlias

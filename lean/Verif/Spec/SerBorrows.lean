import Verif.Spec.DriverBorrows

/-!
# Stacked Borrows during `to_string`, with protectors and all reborrows

As `Verif/Spec/DriverBorrows.lean`, for `to_string_impl` (`src/json/ser.rs:53-134`): the record of a run is replayed at one arbitrary byte of memory, with every reborrow that the driver makes.  "Visitors" are here the references `&dyn Serialize`, "builders"
the boxes `Box<dyn Seq>`, `Box<dyn Map>`, which the driver keeps as they are: a builder's pointer is a `Box`, not a raw pointer, and it is moved while a reference that the builder has lent is in use.

A method called through `&self` can use everything in its view, as long as the reference stays valid: unlike `&mut`, it may have other references to the same memory.

If the driver's reference points to the location itself, a stream or string that the method returns gets at most what is above that reference.

A reference or box that a method returns is inside an `Option` or a `Fragment`, a string inside a `Cow`.  How often it is retagged before the driver uses it, and under which protectors, is left open (`SerSafe.way`, `SerSafe.textWay`).
-/

namespace Miniserde.SB

/-- What the location has to do with the value passed to `to_string_impl`. -/
inductive SerStart where
  /-- The location is not in use. -/
  | unused
  /-- The reference passed in points to it. -/
  | value
  /-- It can be reached through references in the value. -/
  | reached
  /-- It is memory that the value owns, somewhere else.  (Here the methods of the value may also write there, which safe code cannot.) -/
  | owned
  deriving DecidableEq, Repr

/-- The safe code behind the traits, as far as the location is concerned. -/
structure SerSafe where
  start : SerStart
  /-- What the method called in the `n`-th operation of the run does. -/
  acts : Nat → List UAct
  /-- If the `n`-th operation is the return of a reference or box: how much of the view it gets. -/
  cut : Nat → Nat
  /-- Does the returned reference or box itself point to the location, and with which tag? -/
  direct : Nat → Option Nat
  /-- If a string is returned with the `n`-th operation (by `begin`, or as a key by `next`, there from what the builder keeps for itself or from what it lends to the element): does it contain the location, and with which tag? -/
  text : Nat → Option Nat
  /-- Do builders return references into their own box? -/
  lendsFromBox : Bool
  /-- Is the location inside an `UnsafeCell`? -/
  cell : Bool
  /-- How the reference or box returned with the `n`-th operation is passed on to where it is used, as in `Safe.way`. -/
  way : Nat → List Bool := fun _ => []
  /-- The same for a string. -/
  textWay : Nat → List Bool := fun _ => []

/-- The permission of `&`. -/
def sharedPerm (cell : Bool) : Perm := if cell then .sharedRW else .sharedRO

/-- `&*t`; `prot`: as an argument.  In an `UnsafeCell` this is like a raw pointer: no access, no protection. -/
def Run.ref (cell : Bool) (t : Nat) (prot : Bool) (r : Run) : Run × Nat := (r.lib (.reborrow (sharedPerm cell) t (prot && !cell)), r.real.tag)

/-- A method runs that was called through a reference with entry `i`; it does nothing that would make the reference invalid. -/
def Run.userKeep (i : Item) (us : List UAct) (r : Run) : Run :=
  { us.foldl (fun r u => if i ∈ (r.step u).view.items then r.step u else r) { r with mine := false } with mine := r.mine }

namespace St

/-- `src/json/ser.rs:56,78,93,108,123` `value.begin()`, `first.begin()`, `next.begin()`: `&*first`, then the argument of `begin`. -/
def serVisitor (cell : Bool) (h : Nat) (r : Run) : Run :=
  let (r, t) := r.ref cell h false
  ((r.lib .enter).ref cell t true).1

/-- `begin` is called. -/
def serBegin (cell : Bool) (us : List UAct) (id : Nat) (s : St) : St :=
  match s.handle id with
  | some h => s.exit id ((serVisitor cell h (s.enter id)).userKeep ⟨h, sharedPerm cell, none⟩ us)
  | none => s.exit id (((s.enter id).lib .enter).user us)

/-- `src/json/ser.rs:75,87,105,117` `seq.next()`, `map.next()`: `&mut *seq`, then the argument of `next`. -/
def serBuilder (h : Nat) (r : Run) : Run :=
  let (r, t) := r.reb h false
  ((r.lib .enter).reb t true).1

/-- `src/json/ser.rs:76,89,106,119`: the reference is returned in an `Option`, passed on, and bound to a variable. -/
def serConvVisitor (cell : Bool) (way : List Bool) (t : Nat) (r : Run) : Run × Nat :=
  let (r, t) := r.ref cell t false
  let (r, t) := r.pass (Run.ref cell) way t
  r.ref cell t false

/-- `src/json/ser.rs:62,90,121` `escape_str`: the driver reads a string that `id` has returned, after passing it on.  There is no `UnsafeCell` in a string. -/
def serRead (way : List Bool) (t : Nat) (r : Run) : Run :=
  let (r, t) := r.ref false t false
  let (r, t) := r.pass (Run.ref false) way t
  r.lib (.read t)

/-- If the string contains the location, it is read there. -/
def serText (way : List Bool) (t : Option Nat) (id : Nat) (s : St) : St :=
  match t with
  | some t => if (locate false t (s.lendable id)).isSome then s.exit id (serRead way t (s.enter id)) else s
  | none => s

/-- `src/json/ser.rs:72,84` `Fragment::Seq(mut seq)`: the box is returned in a `Fragment`, passed on, and bound to a variable. -/
def serConvBuilder (way : List Bool) (t : Nat) (r : Run) : Run × Nat :=
  let (r, t) := r.reb t false
  let (r, t) := r.pass Run.reb way t
  r.reb t false

/-- A box goes out of scope, or `serializer.stack.pop()` (`src/json/ser.rs:48,131`): the argument of `drop_in_place`, then the memory of the box is freed. -/
def serDrop (us : List UAct) (id : Nat) (s : St) : St :=
  match s.handle id with
  | some h =>
    let s := s.exit id ((((s.enter id).lib .enter).reb h true).1.userSelf us)
    { s with loc := s.loc.free h, views := upd s.views id [], handle := upd s.handle id none, owner := if s.owner = some id then none else s.owner }
  | none => s.call serBuilder us id

/-- `src/json/ser.rs:77,92` `serializer.stack.push(Layer::Seq(seq))`: a box is moved, which asserts its uniqueness and gives it a new tag. -/
def serMove (id : Nat) (s : St) : St :=
  match s.handle id with
  | some h => { s.exit id ((s.enter id).reb h false).1 with handle := upd s.handle id (some ((s.enter id).reb h false).2) }
  | none => s

variable (retag : Bool) (C : SerSafe)

/-- How much of the view a reference returned by `parent` gets. -/
def serCut (n parent : Nat) (s : St) : Nat := if (s.handle parent).isSome && !C.lendsFromBox then 0 else C.cut n

/-- The `n`-th operation of the run.  `retag` says whether moving a box into the stack asserts its uniqueness. -/
def serStep (n : Nat) (o : Op) (s : St) : St :=
  match o with
  | .callVisitor id => (s.serBegin C.cell (C.acts n) id).serText (C.textWay n) (C.text n) id
  | .callBuilder id => ((s.endKid id).call serBuilder (C.acts n) id).serText (C.textWay n) (C.text n) id
  | .newVisitor id parent =>
    let s := { s.share (s.serCut C n parent) id parent with kid := upd s.kid parent (some id) }
    (match C.direct n with
      | some t => s.point C.cell (serConvVisitor C.cell (C.way n)) t id
      | none => s).serText (C.textWay n) (C.text n) id
  | .newBuilder id parent =>
    let s := { s with par := upd s.par id parent, kid := upd s.kid id none }
    match C.direct n with
    | some t =>
      -- a box owns its memory
      if s.owner = some parent ∧ s.handle parent = none then (s.share (s.views parent).length id parent).point true (serConvBuilder (C.way n)) t id
      else s.share (C.cut n) id parent
    | none => s.share (C.cut n) id parent
  | .dropBuilder id => ((s.endKid id).serDrop (C.acts n) id).merge id (s.par id)
  | .moveBuilder id => if retag then s.serMove id else s

/-- `src/json/ser.rs:53`: `to_string_impl` is called (call 0), which protects its argument, tag 1; tag 2 is derived from it. -/
def serInit : St :=
  let s : St := ⟨⟨[], [0], 3, 1, true, false⟩, false, none, fun _ => [], fun _ => none, fun _ => none, fun _ => 0⟩
  match C.start with
  | .unused => { s with loc := { s.loc with live := false }, unused := true }
  | .value =>
    { s with
      loc := { s.loc with items := [⟨2, sharedPerm C.cell, none⟩, ⟨1, sharedPerm C.cell, if C.cell then none else some 0⟩, ⟨0, .unique, none⟩] }
      views := upd s.views 0 [⟨2, sharedPerm C.cell, none⟩]
      handle := upd s.handle 0 (some 2) }
  | .reached =>
    { s with
      loc := { s.loc with items := [⟨1, sharedPerm C.cell, none⟩, ⟨0, .unique, none⟩] }
      views := upd s.views 0 [⟨1, sharedPerm C.cell, none⟩] }
  | .owned =>
    { s with
      loc := { s.loc with items := [⟨0, .unique, none⟩] }
      views := upd s.views 0 [⟨0, .unique, none⟩] }

/-- The state after the recorded operations (latest first). -/
def serRun : List Op → St
  | [] => serInit C
  | o :: h => serStep retag C h.length o (serRun h)

end St

/-- There is no undefined behaviour under Stacked Borrows, at any location and for all safe code behind the traits in `Cs`. -/
def SerNoViolation (retag : Bool) (Cs : SerSafe → Prop) (h : List Op) : Prop := ∀ C : SerSafe, Cs C → (St.serRun retag C h).loc.ub = false

end Miniserde.SB

import Verif.Spec.Monitor
import Verif.Spec.StackedBorrows

/-!
# Stacked Borrows during `from_str`, with protectors and all reborrows

Replays the record of a run (`Mon.history`) at one arbitrary byte of memory under the rules of `Verif/Spec/StackedBorrows.lean`, with every reborrow that `from_str_impl` (`src/json/de.rs:60-189`) and
`NonuniqueBox` (`src/ptr.rs`) make.  What the safe code behind the traits does there is arbitrary (`Safe`).

Every visitor and builder has a *view* of the location: its part of the borrow stack, as it would be if the rules of Rust's type system about `&mut self` and lifetimes are followed, that is, if nothing happens to the location but what
it does itself.  A visitor or builder that is returned by a method of another one gets part of the view of that one, which gets it back when the borrow ends.  A method does whatever is allowed in its view; if that is then
not allowed in reality, that is undefined behaviour.

The driver uses no `&` here, so an `UnsafeCell` makes no difference for what it does; a shared reference to one, made by a method, is a `.reborrow .sharedRW`.

A reference or box that a method returns is inside a `Result`, which is passed through other functions (`?`, `Option::ok_or`) before the driver uses what is in it.  How many functions these are, and so how often it is
retagged on the way and under which protectors, is left open (`Safe.way`).  A freed location is not allocated again: a later allocation at the same address is another location.
-/

namespace Miniserde.SB

/-- Fresh memory. -/
def Loc.alloc (l : Loc) : Loc := { l with items := [⟨l.tag, .unique, none⟩], tag := l.tag + 1, live := true }

/-- What safe code does at the location. -/
inductive UAct where
  | acc (a : Acc)
  /-- If the location is not in use: allocate memory there. -/
  | alloc
  /-- If it owns the memory: free it. -/
  | free (t : Nat)
  deriving DecidableEq, Repr

/-- What the location has to do with the visitor passed to `from_str_impl`. -/
inductive Start where
  /-- The location is not in use. -/
  | unused
  /-- The reference passed in points to it. -/
  | direct
  /-- The visitor can reach it through a reference it holds. -/
  | borrowed
  /-- The visitor owns it, somewhere else. -/
  | owned
  deriving DecidableEq, Repr

/-- The safe code behind the traits, as far as the location is concerned. -/
structure Safe where
  start : Start
  /-- What the method called in the `n`-th operation of the run does. -/
  acts : Nat → List UAct
  /-- If the `n`-th operation is the return of a visitor or builder: how much of the view it gets. -/
  cut : Nat → Nat
  /-- Does the returned reference or box itself point to the location, and with which tag? -/
  direct : Nat → Option Nat
  /-- How what is returned with the `n`-th operation is passed on to where it is used: it becomes the argument of a function (`true`), or is returned or moved (`false`). -/
  way : Nat → List Bool := fun _ => []

/-- A call in progress. -/
structure Run where
  real : Loc
  view : Loc
  unused : Bool
  /-- The visitor or builder owns the memory. -/
  mine : Bool

/-- Something the driver does. -/
def Run.lib (a : Acc) (r : Run) : Run := { r with real := r.real.act a, view := r.view.act a }

/-- `&mut *t`; `prot`: as an argument. -/
def Run.reb (t : Nat) (prot : Bool) (r : Run) : Run × Nat := (r.lib (.reborrow .unique t prot), r.real.tag)

/-- A pointer is passed on (`Safe.way`): the state, its tag, and the number of functions it is inside of.  Every step is a reborrow by `reb`, with protection if it is an argument. -/
def Run.passStep (reb : Nat → Bool → Run → Run × Nat) (x : Run × Nat × Nat) (arg : Bool) : Run × Nat × Nat :=
  match arg, x with
  | true, (r, t, d) => ((reb t true (r.lib .enter)).1, (reb t true (r.lib .enter)).2, d + 1)
  | false, (r, t, 0) => ((reb t false r).1, (reb t false r).2, 0)
  | false, (r, t, d + 1) => ((reb t false (r.lib .leave)).1, (reb t false (r.lib .leave)).2, d)

/-- A pointer is passed on, and in the end returned from all functions it is inside of. -/
def Run.pass (reb : Nat → Bool → Run → Run × Nat) (way : List Bool) (t : Nat) (r : Run) : Run × Nat :=
  let x := way.foldl (Run.passStep reb) (r, t, 0)
  let y := (List.replicate x.2.2 false).foldl (Run.passStep reb) x
  (y.1, y.2.1)

/-- Something the safe code does, if it is allowed in its view.  (The function called by the driver does not return before its end.) -/
def Run.step (r : Run) (u : UAct) : Run :=
  match u with
  | .acc a => if (r.view.act a).ub || (r.view.act a).calls.isEmpty then r else r.lib a
  | .alloc => if r.unused then { real := r.real.alloc, view := r.view.alloc, unused := false, mine := true } else r
  | .free t => if r.mine && !(r.view.free t).ub then { r with real := r.real.free t, view := { r.view with items := [] }, mine := false } else r

/-- A method runs that has the location in its view. -/
def Run.user (us : List UAct) (r : Run) : Run := us.foldl Run.step r

/-- A method runs whose argument `&mut self`, the topmost entry, points to the location: all it can use is what it derives from that. -/
def Run.userSelf (us : List UAct) (r : Run) : Run :=
  let x := Run.user us { r with view := { r.view with items := r.view.items.take 1 }, mine := false }
  { x with view := { x.view with items := x.view.items ++ r.view.items.drop 1 }, mine := r.mine }

/-- The state of the location. -/
structure St where
  loc : Loc
  unused : Bool
  /-- Which visitor or builder owns the memory, if it is one of the run. -/
  owner : Option Nat
  /-- The views, by number. -/
  views : Nat → List Item
  /-- The tag of the driver's pointer to the visitor or builder, if that points to the location. -/
  handle : Nat → Option Nat
  /-- The visitor that a builder has returned last. -/
  kid : Nat → Option Nat
  /-- The visitor that has returned a builder. -/
  par : Nat → Nat

/-- Change one value of a function. -/
def upd {α : Type} (f : Nat → α) (n : Nat) (a : α) : Nat → α := fun m => if m = n then a else f m

namespace St

/-- A call on `id` begins ... -/
def enter (id : Nat) (s : St) : Run :=
  ⟨s.loc, ⟨s.views id, [], s.loc.tag, s.loc.call, true, false⟩, s.unused, decide (s.owner = some id)⟩

/-- ... and ends, by returning or unwinding. -/
def exit (id : Nat) (r : Run) (s : St) : St :=
  { s with
    loc := { r.real with calls := r.real.calls.drop r.view.calls.length }
    unused := r.unused
    owner := if r.mine then some id else if s.owner = some id then none else s.owner
    views := upd s.views id r.view.items }

/-- `src/json/de.rs:71` `&mut *visitor.as_ptr()`, then the argument of the method. -/
def preVisitor (h : Nat) (r : Run) : Run :=
  let (r, t) := r.reb h false
  ((r.lib .enter).reb t true).1

/-- `src/ptr.rs:48-50` `deref_mut`, which calls `NonNull::as_mut`; then the argument of the method. -/
def preBuilder (h : Nat) (r : Run) : Run :=
  let (r, t) := ((r.lib .enter).lib .enter).reb h false
  let (r, t) := (r.lib .leave).reb t false
  let (r, t) := (r.lib .leave).reb t false
  ((r.lib .enter).reb t true).1

/-- `src/ptr.rs:57-60`: `Box::from_raw`, whose result is retagged, then the argument of `drop_in_place`; also the tag of the box. -/
def preDrop (h : Nat) (r : Run) : Run × Nat :=
  let (r, t) := (r.lib .enter).reb h false
  let (r, b) := (r.lib .leave).reb t false
  (((r.lib .enter).reb b true).1, b)

/-- A method of `id` is called, which has a pointer to it if the location is in the visitor or builder itself. -/
def call (pre : Nat → Run → Run) (us : List UAct) (id : Nat) (s : St) : St :=
  match s.handle id with
  | some h => s.exit id ((pre h (s.enter id)).userSelf us)
  | none => s.exit id (((s.enter id).lib .enter).user us)

/-- What `kid` can use is given back to `id`. -/
def merge (kid id : Nat) (s : St) : St :=
  { s with views := upd s.views id (s.views kid ++ s.views id), owner := if s.owner = some kid then some id else s.owner }

/-- The visitor that builder `id` has returned is not used any more. -/
def endKid (id : Nat) (s : St) : St :=
  match s.kid id with
  | some k => { s.merge k id with kid := upd s.kid id none }
  | none => s

/-- What `parent` can give away: if the location is in itself, what is derived from the driver's pointer. -/
def lendable (parent : Nat) (s : St) : List Item :=
  match s.handle parent with
  | some h => (s.views parent).takeWhile (·.tag != h)
  | none => s.views parent

/-- The new visitor or builder `id` gets `n` entries of the view of `parent`; with all of them also the memory. -/
def share (n id parent : Nat) (s : St) : St :=
  { s with
    views := upd (upd s.views parent ((s.views parent).drop ((s.lendable parent).take n).length)) id ((s.lendable parent).take n)
    owner := if s.owner = some parent ∧ (s.views parent).drop ((s.lendable parent).take n).length = [] then some id else s.owner
    handle := upd s.handle id none }

/-- The reference or box `t` returned points to the location itself; what the driver makes of it (`conv`) is its pointer.  `w`: `t` is a `&mut` or a `Box`, not a `&`. -/
def point (w : Bool) (conv : Nat → Run → Run × Nat) (t id : Nat) (s : St) : St :=
  if (locate w t (s.views id)).isSome then
    { s.exit id (conv t (s.enter id)).1 with handle := upd s.handle id (some (conv t (s.enter id)).2) }
  else s

/-- `src/json/de.rs:157-159,168-170`: `element` or `key` returns a reference in a `Result`, which is retagged and passed on, `NonNull::from` makes a raw pointer of its argument. -/
def convVisitor (way : List Bool) (t : Nat) (r : Run) : Run × Nat :=
  let (r, t) := r.reb t false
  let (r, t) := r.pass Run.reb way t
  let (r, t) := (r.lib .enter).reb t true
  ((r.lib (.reborrow .sharedRW t false)).lib .leave, r.real.tag)

/-- `src/json/de.rs:98-99,102-103`: `seq` or `map` returns a box in a `Result`, which is retagged and passed on; `NonuniqueBox::from` and `Box::into_raw` (`src/ptr.rs:27-31`). -/
def convBuilder (way : List Bool) (t : Nat) (r : Run) : Run × Nat :=
  let (r, t) := r.reb t false
  let (r, t) := r.pass Run.reb way t
  let (r, t) := (r.lib .enter).reb t true
  let (r, t) := (r.lib .enter).reb t true
  (((r.lib (.reborrow .sharedRW t false)).lib .leave).lib .leave, r.real.tag)

/-- The destructor of a builder: `src/ptr.rs:57-60`; if the location is in its box, the memory is freed. -/
def drop (us : List UAct) (id : Nat) (s : St) : St :=
  match s.handle id with
  | some h =>
    let (r, b) := preDrop h (s.enter id)
    let s := s.exit id (r.userSelf us)
    { s with loc := s.loc.free b, views := upd s.views id [], handle := upd s.handle id none, owner := if s.owner = some id then none else s.owner }
  | none => s.call preBuilder us id

variable (C : Safe)

/-- The `n`-th operation of the run. -/
def step (n : Nat) (o : Op) (s : St) : St :=
  match o with
  | .callVisitor id => s.call preVisitor (C.acts n) id
  | .callBuilder id => (s.endKid id).call preBuilder (C.acts n) id
  | .newVisitor id parent =>
    let s := { s.share (C.cut n) id parent with kid := upd s.kid parent (some id) }
    match C.direct n with
    | some t => s.point true (convVisitor (C.way n)) t id
    | none => s
  | .newBuilder id parent =>
    let s := { s with par := upd s.par id parent, kid := upd s.kid id none }
    match C.direct n with
    | some t =>
      -- a box owns its memory
      if s.owner = some parent ∧ s.handle parent = none then (s.share (s.views parent).length id parent).point true (convBuilder (C.way n)) t id
      else s.share (C.cut n) id parent
    | none => s.share (C.cut n) id parent
  | .dropBuilder id => ((s.endKid id).drop (C.acts n) id).merge id (s.par id)
  | .moveBuilder _ => s

/-- `src/json/de.rs:60-62`: `from_str_impl` is called (call 0), which protects its argument; `NonNull::from(visitor)` (call 1). -/
def init : St :=
  let s : St := ⟨⟨[], [0], 4, 2, true, false⟩, false, none, fun _ => [], fun _ => none, fun _ => none, fun _ => 0⟩
  match C.start with
  | .unused => { s with loc := { s.loc with live := false }, unused := true }
  | .direct =>
    { s with
      loc := { s.loc with items := [⟨3, .sharedRW, none⟩, ⟨2, .unique, some 1⟩, ⟨1, .unique, some 0⟩, ⟨0, .unique, none⟩] }
      views := upd s.views 0 [⟨3, .sharedRW, none⟩]
      handle := upd s.handle 0 (some 3) }
  | .borrowed =>
    { s with
      loc := { s.loc with items := [⟨1, .unique, none⟩, ⟨0, .unique, none⟩] }
      views := upd s.views 0 [⟨1, .unique, none⟩] }
  | .owned =>
    { s with
      loc := { s.loc with items := [⟨0, .unique, none⟩] }
      views := upd s.views 0 [⟨0, .unique, none⟩]
      owner := some 0 }

/-- The state after the recorded operations (latest first). -/
def run : List Op → St
  | [] => init C
  | o :: h => step C h.length o (run h)

end St

/-- There is no undefined behaviour under Stacked Borrows, at any location and whatever safe code there is behind the traits. -/
def NoViolation (h : List Op) : Prop := ∀ C : Safe, (St.run C h).loc.ub = false

end Miniserde.SB

import Verif.Spec.Monitor
import Verif.Spec.TreeBorrows

/-!
# Tree Borrows during `from_str`

As `Verif/Spec/DriverBorrows.lean`: replays the record of a run (`Mon.history`) at one arbitrary byte of memory, with every reborrow that `from_str_impl` (`src/json/de.rs:60-189`) and `NonuniqueBox` (`src/ptr.rs`) make, but under the
rules of `Verif/Spec/TreeBorrows.lean`.  What the safe code behind the traits does there is arbitrary (`Safe`).

Every visitor and builder has a *view* of the location: the part of the tree below a reference that it has (its *root*), as it would be if nothing happened to that part but what is done through it.  A visitor or builder that is returned
by a method of another one gets the view below a reference of that one.  A method does whatever is allowed in its view; if that is then not allowed in reality, that is undefined behaviour.  The views of others in which the same access is
possible, because they contain the reference it is made through, change in the same way.

A freed location is not allocated again: a later allocation at the same address is another location.
-/

namespace Miniserde.TB

/-- What safe code does at the location. -/
inductive UAct where
  | acc (a : Acc)
  /-- If the location is not in use: allocate memory there. -/
  | alloc
  /-- If it owns the memory: free it. -/
  | free (t : Tag)
  deriving DecidableEq, Repr

/-- What the location has to do with the visitor passed to `from_str_impl`. -/
inductive Start where
  /-- The location is not in use. -/
  | unused
  /-- The reference passed in points to it. -/
  | direct
  /-- The visitor can reach it through a `&mut` it holds. -/
  | borrowed
  /-- The visitor can reach it through a `&` it holds. -/
  | shared
  /-- The visitor owns it, somewhere else. -/
  | owned
  deriving DecidableEq, Repr

/-- The safe code behind the traits, as far as the location is concerned. -/
structure Safe where
  start : Start
  /-- Is the location inside of an `UnsafeCell`? -/
  im : Bool
  /-- What the method called in the `n`-th operation of the run does. -/
  acts : Nat → List UAct
  /-- If the `n`-th operation is the return of a visitor or builder: which reference that has, if any. -/
  cut : Nat → Option Tag
  /-- Does the returned reference or box itself point to the location, and with which tag? -/
  direct : Nat → Option Tag
  /-- How what is returned with the `n`-th operation is passed on to where it is used: it becomes the argument of a function (`true`), or is returned or moved (`false`). -/
  way : Nat → List Bool

/-- The state of the location. -/
structure St where
  loc : Loc
  unused : Bool
  /-- Which visitor or builder owns the memory, if it is one of the run. -/
  owner : Option Nat
  /-- The reference that a visitor or builder has, and its view. -/
  root : Nat → Option Tag
  views : Nat → List Item
  /-- The tag of the driver's pointer to the visitor or builder, if that points to the location. -/
  handle : Nat → Option Tag
  /-- The visitor that a builder has returned last. -/
  kid : Nat → Option Nat
  /-- The visitor that has returned a builder. -/
  par : Nat → Nat

/-- Change one value of a function. -/
def upd {α : Type} (f : Nat → α) (n : Nat) (a : α) : Nat → α := fun m => if m = n then a else f m

/-- Can the reference be read and written through? -/
def Item.open (calls : List Nat) (i : Item) : Bool :=
  match i.perm with
  | .reserved c => !(c && i.guarded calls)
  | .reservedIM | .active | .cell => true
  | .frozen | .disabled => false

namespace St

/-- The location, if its tree were `is`. -/
def view (is : List Item) (s : St) : Loc := { s.loc with items := is, live := true, ub := false }

/-- An operation at the location, and in all views in which it is possible. -/
def act (a : Acc) (s : St) : St :=
  { s with loc := s.loc.act a, views := fun y => if ((s.view (s.views y)).act a).ub then s.views y else ((s.view (s.views y)).act a).items }

/-- `&mut *t`; `prot`: as an argument. -/
def reb (t : Tag) (prot : Bool) (s : St) : St × Tag := (s.act (.reborrow s.loc.mutPerm t prot), s.loc.next :: t)

/-- A pointer is passed on (`Safe.way`): the state, its tag, and the number of functions it is inside of. -/
def passStep (x : St × Tag × Nat) (arg : Bool) : St × Tag × Nat :=
  match arg, x with
  | true, (s, t, d) => (((s.act .enter).reb t true).1, ((s.act .enter).reb t true).2, d + 1)
  | false, (s, t, 0) => ((s.reb t false).1, (s.reb t false).2, 0)
  | false, (s, t, d + 1) => (((s.act .leave).reb t false).1, ((s.act .leave).reb t false).2, d)

/-- A pointer is passed on, and in the end returned from all functions it is inside of. -/
def pass (way : List Bool) (t : Tag) (s : St) : St × Tag :=
  let x := way.foldl passStep (s, t, 0)
  let y := (List.replicate x.2.2 false).foldl passStep x
  (y.1, y.2.1)

/-- What a method of `id` can use: its view; if the location is in the visitor or builder itself, what is derived from its argument. -/
def mine (id : Nat) (arg : Option Tag) (s : St) : List Item :=
  match arg with
  | some t => below t (s.views id)
  | none => s.views id

/-- The memory is freed. -/
def free (t : Tag) (s : St) : St :=
  { s with
    loc := s.loc.free t
    views := fun y => if (s.views y).any (·.tag == t) then [] else s.views y
    root := fun y => if (s.views y).any (·.tag == t) then none else s.root y }

/-- Fresh memory for `id`. -/
def alloc (id : Nat) (s : St) : St :=
  { s with
    loc := { s.loc with items := [⟨[s.loc.next], .active, none⟩], next := s.loc.next + 1, live := true }
    views := upd s.views id [⟨[s.loc.next], .active, none⟩]
    root := upd s.root id (some [s.loc.next])
    owner := some id
    unused := false }

/-- Something that a method of `id` does, if it is allowed in its view.  (The function called by the driver does not return before its end.) -/
def step (id : Nat) (arg : Option Tag) (s : St) (u : UAct) : St :=
  match u with
  | .acc a => if ((s.view (s.mine id arg)).act a).ub || (a == .leave && s.loc.calls.length ≤ 2) then s else s.act a
  | .alloc => if s.unused then s.alloc id else s
  | .free t => if decide (s.owner = some id) && arg.isNone && !((s.view (s.mine id arg)).free t).ub then { s.free t with owner := none } else s

/-- `n` functions return or unwind: those that safe code has called, and the method itself. -/
def returns : Nat → St → St
  | 0, s => s
  | n + 1, s => returns n (s.act .leave)

/-- A method of `id` runs, to its end. -/
def user (id : Nat) (arg : Option Tag) (us : List UAct) (s : St) : St :=
  let s := us.foldl (step id arg) s
  s.returns (s.loc.calls.length - 1)

/-- `src/json/de.rs:71` `&mut *visitor.as_ptr()`, then the argument of the method. -/
def preVisitor (h : Tag) (s : St) : St × Tag :=
  let (s, t) := s.reb h false
  (s.act .enter).reb t true

/-- `src/ptr.rs:48-50` `deref_mut`, which calls `NonNull::as_mut`; then the argument of the method. -/
def preBuilder (h : Tag) (s : St) : St × Tag :=
  let (s, t) := ((s.act .enter).act .enter).reb h false
  let (s, t) := (s.act .leave).reb t false
  let (s, t) := (s.act .leave).reb t false
  (s.act .enter).reb t true

/-- `src/ptr.rs:57-60`: the result of `Box::from_raw` is retagged. -/
def preDrop (h : Tag) (s : St) : St × Tag :=
  let (s, t) := (s.act .enter).reb h false
  (s.act .leave).reb t false

/-- A method of `id` is called, which has a pointer to it if the location is in the visitor or builder itself. -/
def call (pre : Tag → St → St × Tag) (us : List UAct) (id : Nat) (s : St) : St :=
  match s.handle id with
  | some h => (pre h s).1.user id (some (pre h s).2) us
  | none => (s.act .enter).user id none us

/-- What `kid` can use is given back to `id`, which may not have known of it. -/
def merge (kid id : Nat) (s : St) : St :=
  { s with
    root := upd s.root id (if s.root id = none then s.root kid else s.root id)
    views := upd s.views id (if s.root id = none then s.views kid else s.views id)
    owner := if s.owner = some kid then some id else s.owner }

/-- The visitor that builder `id` has returned is not used any more. -/
def endKid (id : Nat) (s : St) : St :=
  match s.kid id with
  | some k => { s.merge k id with kid := upd s.kid id none }
  | none => s

/-- Can `parent` give away the reference `t`: a `&mut` that it can write through, or a `&` that it can read through?  If the location is in `parent` itself, it must be derived from the driver's pointer. -/
def lendable (parent : Nat) (t : Tag) (s : St) : Bool :=
  (match s.handle parent with | some h => h.isSuffixOf t && h != t | none => true) &&
  (s.views parent).any (·.tag == t) &&
  ((s.views parent).all (fun i => !(i.tag.isSuffixOf t && i.tag != t) || i.open s.loc.calls) ||
   (s.views parent).all (fun i => !(i.tag.isSuffixOf t) || (if i.tag = t then i.perm == .frozen else i.perm != .disabled)))

/-- The new visitor or builder `id` gets the reference `t` of `parent`; if that is all `parent` has, also the memory. -/
def share (t : Option Tag) (id parent : Nat) (s : St) : St :=
  match t.filter (fun t => s.lendable parent t) with
  | some t =>
    { s with
      root := upd s.root id (some t)
      views := upd s.views id (below t (s.views parent))
      owner := if s.owner = some parent ∧ s.handle parent = none ∧ s.root parent = some t then some id else s.owner
      handle := upd s.handle id none }
  | none => { s with root := upd s.root id none, views := upd s.views id [], handle := upd s.handle id none }

/-- The reference or box `t` returned points to the location itself; what the driver makes of it (`conv`) is its pointer.  `t` is a `&mut` or a `Box`. -/
def point (conv : Tag → St → St × Tag) (t : Tag) (id : Nat) (s : St) : St :=
  if (s.views id).any (·.tag == t) && (s.views id).all (fun i => !(i.tag.isSuffixOf t) || i.open s.loc.calls) then
    { (conv t s).1 with handle := upd s.handle id (some (conv t s).2) }
  else s

/-- `src/json/de.rs:157-159,168-170`: `element` or `key` returns a reference in a `Result`, which is retagged and passed on, `NonNull::from` makes a raw pointer (with the same tag) of its argument. -/
def convVisitor (way : List Bool) (t : Tag) (s : St) : St × Tag :=
  let (s, t) := s.reb t false
  let (s, t) := s.pass way t
  let (s, t) := (s.act .enter).reb t true
  (s.act .leave, t)

/-- `src/json/de.rs:98-99,102-103`: `seq` or `map` returns a box in a `Result`, which is retagged and passed on; `NonuniqueBox::from` and `Box::into_raw` (`src/ptr.rs:27-31`). -/
def convBuilder (way : List Bool) (t : Tag) (s : St) : St × Tag :=
  let (s, t) := s.reb t false
  let (s, t) := s.pass way t
  let (s, t) := (s.act .enter).reb t true
  let (s, t) := (s.act .enter).reb t true
  ((s.act .leave).act .leave, t)

/-- The destructor of a builder: `src/ptr.rs:57-60`, `drop_in_place` of what is in the box; if the location is in its box, the memory is freed. -/
def drop (us : List UAct) (id : Nat) (s : St) : St :=
  match s.handle id with
  | some h =>
    let (s, b) := preDrop h s
    let (s, t) := (s.act .enter).reb b true
    let s := (s.user id (some t) us).free b
    { s with handle := upd s.handle id none, owner := if s.owner = some id then none else s.owner }
  | none => s.call preBuilder us id

variable (C : Safe)

/-- The `n`-th operation of the run. -/
def op (n : Nat) (o : Op) (s : St) : St :=
  match o with
  | .callVisitor id => s.call preVisitor (C.acts n) id
  | .callBuilder id => (s.endKid id).call preBuilder (C.acts n) id
  | .newVisitor id parent =>
    let s := { s.share (C.cut n) id parent with kid := upd s.kid parent (some id) }
    match C.direct n with
    | some t => s.point (convVisitor (C.way n)) t id
    | none => s
  | .newBuilder id parent =>
    let s := { s with par := upd s.par id parent, kid := upd s.kid id none }
    match C.direct n with
    | some t =>
      -- a box owns its memory
      if s.owner = some parent ∧ s.handle parent = none then (s.share (s.root parent) id parent).point (convBuilder (C.way n)) t id
      else s.share (C.cut n) id parent
    | none => s.share (C.cut n) id parent
  | .dropBuilder id => ((s.endKid id).drop (C.acts n) id).merge id (s.par id)
  | .moveBuilder _ => s

/-- `src/json/de.rs:60-62`: `from_str_impl` is called (call 0), which protects its argument; `NonNull::from(visitor)` (call 1). -/
def init : St :=
  let s : St := ⟨⟨[], [0], 4, 2, true, C.im, false⟩, false, none, fun _ => none, fun _ => [], fun _ => none, fun _ => none, fun _ => 0⟩
  let p := s.loc.mutPerm
  match C.start with
  | .unused => { s with loc := { s.loc with live := false }, unused := true }
  | .direct =>
    { s with
      loc := { s.loc with items := [⟨[2, 1, 0], .reserved false, some 1⟩, ⟨[1, 0], .reserved false, some 0⟩, ⟨[0], p, none⟩] }
      root := upd s.root 0 (some [2, 1, 0])
      views := upd s.views 0 [⟨[2, 1, 0], .reserved false, some 1⟩]
      handle := upd s.handle 0 (some [2, 1, 0]) }
  | .borrowed =>
    { s with
      loc := { s.loc with items := [⟨[1, 0], p, none⟩, ⟨[0], p, none⟩] }
      root := upd s.root 0 (some [1, 0])
      views := upd s.views 0 [⟨[1, 0], p, none⟩] }
  | .shared =>
    { s with
      loc := { s.loc with items := [⟨[1, 0], if C.im then .cell else .frozen, none⟩, ⟨[0], p, none⟩] }
      root := upd s.root 0 (some [1, 0])
      views := upd s.views 0 [⟨[1, 0], if C.im then .cell else .frozen, none⟩] }
  | .owned =>
    { s with
      loc := { s.loc with items := [⟨[0], .active, none⟩] }
      root := upd s.root 0 (some [0])
      views := upd s.views 0 [⟨[0], .active, none⟩]
      owner := some 0 }

/-- The state after the recorded operations (latest first). -/
def run : List Op → St
  | [] => init C
  | o :: h => op C h.length o (run h)

end St

/-- There is no undefined behaviour under Tree Borrows, at any location and whatever safe code there is behind the traits. -/
def NoViolation (h : List Op) : Prop := ∀ C : Safe, (St.run C h).loc.ub = false

end Miniserde.TB

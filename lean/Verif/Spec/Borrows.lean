import Verif.Spec.Monitor

/-!
# Stacked Borrows, at one memory location

A version of the aliasing rules of Rust ("Stacked Borrows", Jung et al., POPL 2020), replayed on the record of a run (`Mon.history`).  The rules treat the
locations of memory independently, so one arbitrary location is looked at.  Every visitor and builder of the run is a reference or a box; its number is its tag.

What the safe code behind the traits does at the location is arbitrary (`Code`): which visitors and builders reach the location, through `&mut` or
through `&`, what each method call does there (nothing, read, write, or, if the location is not in use, allocate it), and whether the drop of a builder frees
the memory it allocated.

Simplifications: short-lived tags inside one method call are left out; a raw pointer made from a reference (`NonNull::from`, `Box::into_raw`) keeps the tag
of the reference; no protectors (but see `C61_argument_protected` for the one of the argument `visitor`); no `UnsafeCell`; a freed location is not allocated again.
-/

namespace Miniserde

/-- A permission on the borrow stack. -/
inductive Perm where
  /-- `&mut`, `Box`. -/
  | unique
  /-- `&`. -/
  | shared
  /-- A `&mut` that must not be used any more. -/
  | disabled
  deriving DecidableEq, Repr

/-- An entry of the borrow stack. -/
structure Item where
  tag : Nat
  perm : Perm
  deriving DecidableEq, Repr

/-- A read through tag `t`: an entry of the tag must be on the stack; the unique entries above it are disabled. -/
def borrowRead (t : Nat) : List Item → Option (List Item)
  | [] => none
  | i :: s =>
    if i.tag = t ∧ i.perm ≠ .disabled then some (i :: s)
    else (borrowRead t s).map ((if i.perm = .unique then { i with perm := .disabled } else i) :: ·)

/-- A write through tag `t`: a unique entry of the tag must be on the stack; everything above it is popped. -/
def borrowWrite (t : Nat) : List Item → Option (List Item)
  | [] => none
  | i :: s => if i.tag = t ∧ i.perm = .unique then some (i :: s) else borrowWrite t s

/-- What a method call does at the location. -/
inductive Touch where
  | nothing | read | write | alloc
  deriving DecidableEq, Repr

/-- What the safe code does at the location. -/
structure Code where
  /-- Does this visitor or builder point to the location? -/
  points : Nat → Bool
  /-- Through `&` (else through `&mut`, or as its owner)? -/
  shared : Nat → Bool
  /-- What does the `n`-th operation of the run do there? -/
  touch : Nat → Touch
  /-- If the `n`-th operation is the drop of the builder that allocated the location: does it free it? -/
  frees : Nat → Bool
  /-- If a builder allocates the location: is the location in the box of the builder itself? (else in other memory the builder owns) -/
  inBox : Bool
  /-- Do builders hand out references into their own box? -/
  lendsFromBox : Bool

/-- Is the location in use? -/
inductive Alloc where
  | unused | live | freed
  deriving DecidableEq, Repr

/-- The state of the location. -/
structure Cell where
  alloc : Alloc
  /-- The borrow stack, top first. -/
  items : List Item
  /-- The tags that point here. -/
  reach : List Nat
  /-- Those that point here through `&`. -/
  ro : List Nat
  /-- Who allocated it. -/
  owner : Option Nat
  /-- In whose box it lies. -/
  box : Option Nat
  /-- No undefined behaviour so far. -/
  ok : Bool
  deriving DecidableEq, Repr

namespace Cell

/-- An access through a tag. -/
def access (f : Nat → List Item → Option (List Item)) (t : Nat) (c : Cell) : Cell :=
  match c.alloc, f t c.items with
  | .live, some s => { c with items := s }
  | _, _ => { c with ok := false }

/-- A method of `id` runs, which does `a` if it reaches the location.  Through `&` it can only read. -/
def touchBy (a : Touch) (id : Nat) (c : Cell) : Cell :=
  match c.alloc, a with
  | .unused, .alloc => { c with alloc := .live, items := [⟨id, .unique⟩], reach := [id], owner := some id }
  | .unused, _ => c
  | _, .read => if id ∈ c.reach then c.access borrowRead id else c
  | _, .write => if id ∈ c.reach then c.access (if id ∈ c.ro then borrowRead else borrowWrite) id else c
  | _, _ => c

/-- A new reference `id` to the location is derived from `parent`, if that one points here. -/
def derive (shared : Bool) (id parent : Nat) (c : Cell) : Cell :=
  if parent ∈ c.reach then
    if shared ∨ parent ∈ c.ro then
      let c := c.access borrowRead parent
      { c with items := ⟨id, .shared⟩ :: c.items, reach := id :: c.reach, ro := id :: c.ro }
    else
      let c := c.access borrowWrite parent
      { c with items := ⟨id, .unique⟩ :: c.items, reach := id :: c.reach }
  else c

variable (retag : Bool) (C : Code)

/-- The `n`-th operation.  `retag` says whether moving a `Box` asserts its uniqueness, as Stacked Borrows has it (a write to every location of the box). -/
def step (n : Nat) (o : Op) (c : Cell) : Cell :=
  match o with
  | .callVisitor id | .callBuilder id => c.touchBy (C.touch n) id
  | .newVisitor id parent =>
    if C.points id ∧ ¬ (c.box = some parent ∧ ¬ C.lendsFromBox) then c.derive (C.shared id) id parent else c
  | .newBuilder id parent =>
    if C.points id then
      match c.alloc with
      | .unused =>
        { c with alloc := .live, items := [⟨id, .unique⟩], reach := [id], owner := some id, box := if C.inBox then some id else none }
      | _ => c.derive (C.shared id) id parent
    else c
  | .dropBuilder id =>
    let c := c.touchBy (C.touch n) id
    let c := if c.box = some id then c.access borrowWrite id else c
    if c.owner = some id ∧ C.frees n then { c.access borrowWrite id with alloc := .freed } else c
  | .moveBuilder id => if retag ∧ c.box = some id then c.access borrowWrite id else c

/-- Before the run: the location is in use if and only if the visitor passed in (number 0) points to it. -/
def init : Cell :=
  if C.points 0 then
    { alloc := .live, items := [⟨0, if C.shared 0 then .shared else .unique⟩], reach := [0], ro := if C.shared 0 then [0] else [], owner := none,
      box := none, ok := true }
  else { alloc := .unused, items := [], reach := [], ro := [], owner := none, box := none, ok := true }

/-- The state after the recorded operations (latest first). -/
def run : List Op → Cell
  | [] => init C
  | o :: h => step retag C h.length o (run h)

end Cell

/-- The run has no undefined behaviour under Stacked Borrows, at any location and whatever the code behind the traits does there. -/
def NoAliasingViolation (retag : Bool) (Cs : Code → Prop) (h : List Op) : Prop := ∀ C, Cs C → (Cell.run retag C h).ok = true

end Miniserde

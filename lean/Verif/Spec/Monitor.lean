import Verif.Model.Driver

/-!
# A borrow monitor

`P.monitored` wraps an arbitrary implementation `P` of `Visitor`, `Seq`, `Map`.  It forwards every call and records what happens: calls,
visitors handed out, builders made, builders dropped.  Replaying the record keeps the stack of things that are alive: visitors handed
out and builders made from them, innermost first.  A call on anything but the innermost live visitor or builder clears the flag `ok`
for good.  (Calling a builder ends the visitor it handed out last: this is what `&mut self` means.)  Handles are tagged with unique
numbers, so the monitor never confuses two of them.
-/

namespace Miniserde

/-- Something alive. -/
inductive Live where
  | visitor (id : Nat)
  | builder (id : Nat)
  deriving DecidableEq, Repr

/-- Something that happens during a run. -/
inductive Op where
  /-- A method of the visitor is called. -/
  | callVisitor (id : Nat)
  /-- A method of the builder is called. -/
  | callBuilder (id : Nat)
  /-- The call on builder `parent` returned a visitor. -/
  | newVisitor (id parent : Nat)
  /-- The call on visitor `parent` returned a boxed builder. -/
  | newBuilder (id parent : Nat)
  /-- The box of the builder is dropped. -/
  | dropBuilder (id : Nat)
  /-- The box of the builder is moved to another place (only recorded for the serializer, `Verif/Spec/SerMonitor.lean`). -/
  | moveBuilder (id : Nat)
  deriving DecidableEq, Repr

/-- State of the monitor: live things (innermost first), the next fresh number, no violation so far. -/
structure MonSt where
  stack : List Live
  next : Nat
  ok : Bool
  deriving DecidableEq, Repr

/-- One operation. -/
def MonSt.step (o : Op) (m : MonSt) : MonSt :=
  match o, m.stack with
  /- A visitor is called: it must be the innermost live thing. -/
  | .callVisitor id, .visitor i :: _ => { m with ok := m.ok && i == id }
  /- A builder is called: it must be the innermost live thing, except for the visitor it handed out last, which dies. -/
  | .callBuilder id, .builder i :: _ => { m with ok := m.ok && i == id }
  | .callBuilder id, .visitor _ :: .builder i :: r => { m with stack := .builder i :: r, ok := m.ok && i == id }
  /- A new live thing: its number is fresh, and it is made by the innermost live thing. -/
  | .newVisitor id parent, .builder i :: r =>
    { stack := .visitor id :: .builder i :: r, next := m.next + 1, ok := m.ok && i == parent && id == m.next }
  | .newBuilder id parent, .visitor i :: r =>
    { stack := .builder id :: .visitor i :: r, next := m.next + 1, ok := m.ok && i == parent && id == m.next }
  /- A builder is dropped: it must be the innermost live thing (except for its last visitor). -/
  | .dropBuilder id, .builder i :: r => { m with stack := r, ok := m.ok && i == id }
  | .dropBuilder id, .visitor _ :: .builder i :: r => { m with stack := r, ok := m.ok && i == id }
  /- A box is moved: it must be alive and innermost, except for its last visitor, which stays alive. -/
  | .moveBuilder id, .builder i :: _ => { m with ok := m.ok && i == id }
  | .moveBuilder id, .visitor _ :: .builder i :: _ => { m with ok := m.ok && i == id }
  | _, _ => { m with ok := false }

/-- The monitor: the record of what has happened, latest first. -/
structure Mon where
  history : List Op
  deriving DecidableEq, Repr

namespace Mon

/-- The state after the recorded operations.  Initially only the visitor passed to `from_str_impl` (number 0) is alive. -/
def st (m : Mon) : MonSt := m.history.foldr MonSt.step ⟨[.visitor 0], 1, true⟩

/-- What is alive. -/
def stack (m : Mon) : List Live := m.st.stack
/-- The next fresh number. -/
def next (m : Mon) : Nat := m.st.next
/-- No violation so far. -/
def ok (m : Mon) : Bool := m.st.ok

/-- Record an operation. -/
def add (o : Op) (m : Mon) : Mon := ⟨o :: m.history⟩

/-- A visitor is called. -/
def useVisitor (id : Nat) : Mon → Mon := add (.callVisitor id)
/-- A builder is called. -/
def useBuilder (id : Nat) : Mon → Mon := add (.callBuilder id)
/-- A builder is dropped. -/
def dropBuilder (id : Nat) : Mon → Mon := add (.dropBuilder id)
/-- A new live thing. -/
def push (l : Nat → Nat → Op) (parent : Nat) (m : Mon) : Mon := m.add (l m.next parent)

/-- Nothing has happened. -/
def init : Mon := ⟨[]⟩

end Mon

section
variable {σ : Type} (P : Proto σ)

/-- Forward a leaf call. -/
def monLeaf (f : σ → Res Unit × σ) (id : Nat) (w : σ × Mon) : Res Unit × (σ × Mon) :=
  ((f w.1).1, ((f w.1).2, w.2.useVisitor id))

/-- Forward a call that creates something (`seq`, `map`, `element`, `key`): on success it is alive from now on. -/
def monNew {α : Type} (f : σ → Res α × σ) (use : Nat → Mon → Mon) (l : Nat → Nat → Op) (id : Nat) (w : σ × Mon) :
    Res (α × Nat) × (σ × Mon) :=
  match f w.1 with
  | (.ok a, w') => (.ok (a, (use id w.2).next), (w', (use id w.2).push l id))
  | (.err, w') => (.err, (w', use id w.2))
  | (.panic, w') => (.panic, (w', use id w.2))

/-- The monitored implementation. -/
def Proto.monitored : Proto (σ × Mon) where
  V := P.V × Nat
  Q := P.Q × Nat
  M := P.M × Nat
  null v := monLeaf (P.null v.1) v.2
  boolean v b := monLeaf (P.boolean v.1 b) v.2
  string v s := monLeaf (P.string v.1 s) v.2
  negative v n := monLeaf (P.negative v.1 n) v.2
  nonnegative v n := monLeaf (P.nonnegative v.1 n) v.2
  float v x := monLeaf (P.float v.1 x) v.2
  seq v := monNew (P.seq v.1) Mon.useVisitor .newBuilder v.2
  map v := monNew (P.map v.1) Mon.useVisitor .newBuilder v.2
  element q := monNew (P.element q.1) Mon.useBuilder .newVisitor q.2
  key m k := monNew (P.key m.1 k) Mon.useBuilder .newVisitor m.2
  seqFinish q w := ((P.seqFinish q.1 w.1).1, ((P.seqFinish q.1 w.1).2, w.2.useBuilder q.2))
  mapFinish m w := ((P.mapFinish m.1 w.1).1, ((P.mapFinish m.1 w.1).2, w.2.useBuilder m.2))
  dropSeq q w := (P.dropSeq q.1 w.1, w.2.dropBuilder q.2)
  dropMap m w := (P.dropMap m.1 w.1, w.2.dropBuilder m.2)

end

end Miniserde

/-!
# Tree Borrows at one memory location

The other proposal for the aliasing rules of Rust ("Tree Borrows", Villani et al., PLDI 2025, and Miri with `-Zmiri-tree-borrows`), for one byte of memory.  In contrast to Stacked Borrows
(`Verif/Spec/StackedBorrows.lean`), the references that exist form a tree, a raw pointer has the tag of the reference it was made from, a `&mut` is reserved until the first write through it, and the return of a function is an implicit
access through its arguments.

Simplifications: all protectors are strong; an implicit access is made also if the argument is a `Box`.
-/

namespace Miniserde.TB

/-- A tag: its own number, then those of the references it was borrowed from, one from the other.  So the ancestors of a tag in the tree are its suffixes. -/
abbrev Tag := List Nat

/-- The state of a reference. -/
inductive Perm where
  /-- A `&mut` or `Box` that has not been written through; `conflicted`: it was an argument of a call in progress when something not derived from it was read. -/
  | reserved (conflicted : Bool)
  /-- A `&mut` to an `UnsafeCell` that has not been written through. -/
  | reservedIM
  /-- A `&mut` or `Box` that has been written through. -/
  | active
  /-- `&`; a `&mut` after a foreign read -/
  | frozen
  | disabled
  /-- `&` to an `UnsafeCell` -/
  | cell
  deriving DecidableEq, Repr

/-- An access through the reference itself or something derived from it (`w`: a write); `none`: undefined behaviour.  `guarded`: the reference is an argument of a call in progress. -/
def Perm.child (w guarded : Bool) : Perm → Option Perm
  | .reserved c => if w then (if c && guarded then none else some .active) else some (.reserved c)
  | .reservedIM => if w then some .active else some .reservedIM
  | .active => some .active
  | .frozen => if w then none else some .frozen
  | .disabled => none
  | .cell => some .cell

/-- Any other access. -/
def Perm.foreign (w guarded : Bool) : Perm → Option Perm
  | .reserved c => if w then (if guarded then none else some .disabled) else some (.reserved (c || guarded))
  | .reservedIM => some .reservedIM
  | .active => if guarded then none else some (if w then .disabled else .frozen)
  | .frozen => if w then (if guarded then none else some .disabled) else some .frozen
  | .disabled => some .disabled
  | .cell => some .cell

/-- A node of the tree; `prot`: the function call that it is an argument of. -/
structure Item where
  tag : Tag
  perm : Perm
  prot : Option Nat
  deriving DecidableEq, Repr

/-- The state of the location. -/
structure Loc where
  /-- The tree, as a list of its nodes. -/
  items : List Item
  /-- The function calls in progress, innermost first. -/
  calls : List Nat
  /-- The number of the next tag, the next call. -/
  next : Nat
  call : Nat
  live : Bool
  /-- Is the location inside of an `UnsafeCell`? -/
  im : Bool
  /-- There was undefined behaviour. -/
  ub : Bool
  deriving DecidableEq, Repr

/-- Is the node an argument of a call in progress? -/
def Item.guarded (calls : List Nat) (i : Item) : Bool := match i.prot with | some c => calls.contains c | none => false

/-- The new state of a node after an access through `t`.  `ends`: the implicit access when a function with argument `t` returns, which does not concern what is derived from `t`. -/
def Item.after (ends w : Bool) (t : Tag) (calls : List Nat) (i : Item) : Option Perm :=
  if i.tag.isSuffixOf t then i.perm.child w (i.guarded calls)
  else if ends && t.isSuffixOf i.tag then some i.perm
  else i.perm.foreign w (i.guarded calls)

/-- The nodes below `t`. -/
def below (t : Tag) (is : List Item) : List Item := is.filter fun i => t.isSuffixOf i.tag

/-- What a program can do at the location. -/
inductive Acc where
  | read (t : Tag)
  | write (t : Tag)
  /-- Make a new tag from `t`: `&mut *t` (`reserved false`, or `reservedIM`), `&*t` (`frozen`, or `cell`); `prot`: as an argument of the innermost call in progress. -/
  | reborrow (p : Perm) (t : Tag) (prot : Bool)
  /-- A function is called, it returns or unwinds. -/
  | enter
  | leave
  deriving DecidableEq, Repr

namespace Loc

/-- Undefined behaviour. -/
def bad (l : Loc) : Loc := { l with ub := true }

/-- Does the tag exist? -/
def has (t : Tag) (l : Loc) : Bool := l.live && l.items.any (·.tag == t)

/-- An access through `t`. -/
def access (ends w : Bool) (t : Tag) (l : Loc) : Loc :=
  if l.has t && l.items.all (fun i => (i.after ends w t l.calls).isSome) then
    { l with items := l.items.map fun i => { i with perm := (i.after ends w t l.calls).getD i.perm } }
  else l.bad

/-- A function with the argument `t` returns. -/
def ends (t : Tag) (l : Loc) : Loc :=
  match (l.items.find? (·.tag == t)).map Item.perm with
  | none | some .cell | some .disabled => l
  | some .active => l.access true true t
  | some _ => l.access true false t

/-- A new node.  A `&mut` that is an argument counts as one without an `UnsafeCell`. -/
def add (p : Perm) (t : Tag) (prot : Bool) (l : Loc) : Loc :=
  { l with items := ⟨l.next :: t, if prot && p == .reservedIM then .reserved false else p, if prot then l.calls.head? else none⟩ :: l.items, next := l.next + 1 }

/-- The effect of an operation. -/
def act (a : Acc) (l : Loc) : Loc :=
  match a with
  | .read t => l.access false false t
  | .write t => l.access false true t
  | .reborrow p t prot =>
    if p = .reserved false ∨ p = .reservedIM ∨ p = .frozen then (l.access false false t).add p t prot
    else if p = .cell ∧ l.has t then l.add p t prot
    else l.bad
  | .enter => { l with calls := l.call :: l.calls, call := l.call + 1 }
  | .leave =>
    match l.calls with
    | c :: cs => { (l.items.filter (·.prot == some c)).foldl (fun l i => l.ends i.tag) l with calls := cs }
    | [] => l.bad

/-- The memory is freed through `t`: like a write, and nothing may be an argument of a call in progress any more. -/
def free (t : Tag) (l : Loc) : Loc :=
  let l := l.access false true t
  if l.items.any (·.guarded l.calls) then l.bad else { l with items := [], live := false }

/-- Fresh memory, owned through tag `[0]`. -/
def fresh (im : Bool) : Loc := ⟨[⟨[0], .active, none⟩], [], 1, 0, true, im, false⟩

/-- The state of a new `&mut` or `Box`. -/
def mutPerm (l : Loc) : Perm := if l.im then .reservedIM else .reserved false

end Loc

/-! ## Safe code

As in `Verif/Spec/StackedBorrows.lean`: what safe code does with a reference is arbitrary, as long as it would be allowed if the location were used through that reference only; `view` is the location as safe code knows it, its tree
starting with the reference. -/

/-- One step of safe code, which is not taken if safe code would not take it. -/
def safeStep (x : Loc × Loc) (a : Acc) : Loc × Loc := if (x.2.act a).ub then x else (x.1.act a, x.2.act a)

/-- `n` functions that safe code has called return or unwind. -/
def safeReturns : Nat → Loc × Loc → Loc × Loc
  | 0, x => x
  | n + 1, x => safeReturns n (x.1.act .leave, x.2.act .leave)

/-- Safe code runs; in the end the functions it has called have returned or unwound. -/
def safeRun (as : List Acc) (x : Loc × Loc) : Loc × Loc :=
  let y := as.foldl safeStep x
  safeReturns y.2.calls.length y

/-- Safe code is called with `t` as its argument: that is retagged and protected during the call. -/
def lend (t : Tag) (l : Loc) : Loc × Loc :=
  let r := (l.act .enter).act (.reborrow l.mutPerm t true)
  (r, { r with items := below (l.next :: t) r.items, calls := r.calls.take 1 })

end Miniserde.TB

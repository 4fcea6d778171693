/-!
# Stacked Borrows at one memory location, with protectors and raw pointers

The aliasing rules of Rust as in "Stacked Borrows" (Jung et al., POPL 2020) and Miri, for one byte of memory (the rules treat the bytes of memory independently).  More detailed than
`Verif/Spec/Borrows.lean`: raw pointers have permissions of their own, every reborrow, however short-lived, makes a tag, and arguments of functions are protected during the call.

Simplifications: no `UnsafeCell` (a `&` to one is a `.reborrow .sharedRW`), no two-phase borrows; all protectors are strong.
-/

namespace Miniserde.SB

/-- A permission on the borrow stack. -/
inductive Perm where
  /-- `&mut`, `Box` -/
  | unique
  /-- `*mut` -/
  | sharedRW
  /-- `&` -/
  | sharedRO
  /-- A `&mut` after a read through something it was borrowed from. -/
  | disabled
  deriving DecidableEq, Repr

/-- An entry of the borrow stack; `prot`: the function call that it is protected by. -/
structure Item where
  tag : Nat
  perm : Perm
  prot : Option Nat
  deriving DecidableEq, Repr

/-- The state of the location. -/
structure Loc where
  /-- The borrow stack, top first. -/
  items : List Item
  /-- The function calls in progress, innermost first. -/
  calls : List Nat
  /-- The next tag, the next call. -/
  tag : Nat
  call : Nat
  live : Bool
  /-- There was undefined behaviour. -/
  ub : Bool
  deriving DecidableEq, Repr

/-- Does the entry allow to read (to write, if `w`) through tag `t`? -/
def Item.grants (w : Bool) (t : Nat) (i : Item) : Bool :=
  i.tag == t && (if w then i.perm == .unique || i.perm == .sharedRW else i.perm != .disabled)

/-- The entries above the topmost one that grants the access, and the rest. -/
def locate (w : Bool) (t : Nat) : List Item → Option (List Item × Item × List Item)
  | [] => none
  | i :: s => if i.grants w t then some ([], i, s) else (locate w t s).map fun r => (i :: r.1, r.2)

/-- Is the entry protected by a call in progress? -/
def Item.guarded (calls : List Nat) (i : Item) : Bool := match i.prot with | some c => calls.contains c | none => false

/-- The entries above a raw pointer's entry that a write through it leaves alone: raw pointers directly above it. -/
def keep (g : Item) (above : List Item) : List Item := if g.perm = .sharedRW then (above.reverse.takeWhile (·.perm == .sharedRW)).reverse else []

/-- The entries above that a write pops. -/
def popped (g : Item) (above : List Item) : List Item := if g.perm = .sharedRW then (above.reverse.dropWhile (·.perm == .sharedRW)).reverse else above

/-- What a program can do at the location. -/
inductive Acc where
  | read (t : Nat)
  | write (t : Nat)
  /-- Make a new tag from `t`: `&mut *t` (`unique`), `&*t` (`sharedRO`), `t as *mut _` (`sharedRW`); `prot`: as an argument of the innermost call in progress. -/
  | reborrow (p : Perm) (t : Nat) (prot : Bool)
  /-- A function is called, it returns or unwinds. -/
  | enter
  | leave
  deriving DecidableEq, Repr

namespace Loc

/-- Undefined behaviour. -/
def bad (l : Loc) : Loc := { l with ub := true }

/-- A write through `t`: pops what is above, which must not be protected. -/
def write (t : Nat) (l : Loc) : Loc :=
  match l.live, locate true t l.items with
  | true, some (above, g, below) =>
    if (popped g above).any (·.guarded l.calls) then l.bad else { l with items := keep g above ++ g :: below }
  | _, _ => l.bad

/-- A read through `t`: disables the unique entries above, which must not be protected. -/
def read (t : Nat) (l : Loc) : Loc :=
  match l.live, locate false t l.items with
  | true, some (above, g, below) =>
    if above.any fun i => i.perm == .unique && i.guarded l.calls then l.bad
    else { l with items := above.map (fun i => if i.perm = .unique then { i with perm := .disabled } else i) ++ g :: below }
  | _, _ => l.bad

/-- A new raw pointer: its entry goes directly above those compatible with it; no access. -/
def raw (t : Nat) (i : Item) (l : Loc) : Loc :=
  match l.live, locate true t l.items with
  | true, some (above, g, below) => { l with items := popped g above ++ i :: (keep g above ++ g :: below) }
  | _, _ => l.bad

/-- Push an entry. -/
def push (i : Item) (l : Loc) : Loc := { l with items := i :: l.items }

/-- The effect of an operation. -/
def act (a : Acc) (l : Loc) : Loc :=
  match a with
  | .read t => l.read t
  | .write t => l.write t
  | .reborrow p t prot =>
    let i : Item := ⟨l.tag, p, if prot then l.calls.head? else none⟩
    { (match p with
        | .unique => (l.write t).push i
        | .sharedRO => (l.read t).push i
        | .sharedRW => l.raw t i
        | .disabled => l.bad) with tag := l.tag + 1 }
  | .enter => { l with calls := l.call :: l.calls, call := l.call + 1 }
  | .leave => match l.calls with | _ :: cs => { l with calls := cs } | [] => l.bad

/-- Operations in a row. -/
def acts (as : List Acc) (l : Loc) : Loc := as.foldl (fun l a => l.act a) l

/-- The memory is freed through `t`: like a write, and nothing may be protected any more. -/
def free (t : Nat) (l : Loc) : Loc :=
  let l := l.write t
  if l.items.any (·.guarded l.calls) then l.bad else { l with items := [], live := false }

/-- Fresh memory, owned through tag 0. -/
def fresh : Loc := ⟨[⟨0, .unique, none⟩], [], 1, 0, true, false⟩

end Loc

/-! ## Safe code

What safe code does with a reference it is given is arbitrary, as long as it would be allowed if the location were used through that reference only: `view` is the location as safe code knows it, its borrow stack starting
with the reference.  (That safe code by itself never breaks the rules is what the borrow checker is for.) -/

/-- One step of safe code, which is not taken if safe code would not take it. -/
def safeStep (x : Loc × Loc) (a : Acc) : Loc × Loc := if (x.2.act a).ub then x else (x.1.act a, x.2.act a)

/-- Safe code runs; in the end the functions it has called have returned or unwound. -/
def safeRun (as : List Acc) (x : Loc × Loc) : Loc × Loc :=
  let y := as.foldl safeStep x
  ({ y.1 with calls := y.1.calls.drop y.2.calls.length }, { y.2 with calls := [] })

/-- Safe code is called with the topmost reference as its argument: that is retagged and protected during the call. -/
def lend (t : Nat) (l : Loc) : Loc × Loc :=
  let l := (l.act .enter).act (.reborrow .unique t true)
  (l, { l with items := l.items.take 1, calls := l.calls.take 1 })

end Miniserde.SB

import Verif.Model.Basic

/-!
# Memory layout

The rules of the Rust Reference ("Type layout") for the types between which the library casts pointers: `repr(C)` structs, arrays, `MaybeUninit<T>` and
zero-sized unit structs.  Sizes and addresses are natural numbers; the layout of `Option<T>` and `T` themselves is unknown (a parameter).
-/

namespace Miniserde

/-- Size and alignment of a type. Of the types in `src/place.rs:28-31`. -/
structure Lay where
  size : Nat
  align : Nat
  deriving DecidableEq, Repr

/-- Every type: the alignment is a power of two and divides the size. Of the types in `src/place.rs:28-31`. -/
def Lay.Ok (l : Lay) : Prop := (∃ k, l.align = 2 ^ k) ∧ l.align ∣ l.size

/-- Rust Reference, `repr(C)`: "increase the current offset to a multiple of the alignment". `src/place.rs:28-31`. -/
def padTo (offset align : Nat) : Nat := offset + (if offset % align = 0 then 0 else align - offset % align)

/-- Rust Reference, `repr(C)` structs: offsets of the fields from `offset` on, and the end of the last one. `src/place.rs:28-31`. -/
def fieldOffsets (offset : Nat) : List Lay → List Nat × Nat
  | [] => ([], offset)
  | f :: fs => (padTo offset f.align :: (fieldOffsets (padTo offset f.align + f.size) fs).1, (fieldOffsets (padTo offset f.align + f.size) fs).2)

/-- The largest alignment of the fields, at least 1. `src/place.rs:28-31`. -/
def maxAlign : List Lay → Nat
  | [] => 1
  | f :: fs => max f.align (maxAlign fs)

/-- A `repr(C)` struct: its layout and the offsets of its fields.  `src/place.rs:28-31` `struct $name<__T>`; `derive/src/de.rs:56-59` and `:148-151`
`struct __Visitor`. -/
def reprC (fields : List Lay) : Lay × List Nat :=
  (⟨padTo (fieldOffsets 0 fields).2 (maxAlign fields), maxAlign fields⟩, (fieldOffsets 0 fields).1)

/-- `[T; n]`: the layout and the offset of the element `i`. `src/de/impls.rs:479,488,522`. -/
def arrayLay (t : Lay) (n : Nat) : Lay × (Nat → Nat) := (⟨n * t.size, t.align⟩, fun i => i * t.size)

/-- `MaybeUninit<T>` (a `repr(transparent)` union of `T` and `()`): the layout of `T`.  `src/de/impls.rs:488`. -/
def maybeUninit (t : Lay) : Lay := t

/-- `src/ignore.rs:18` `struct Ignore;`. -/
def ignoreLay : Lay := ⟨0, 1⟩

/-- The bytes that an access to a place of this layout at an address touches. `src/place.rs:35`, `src/de/impls.rs:496,522`. -/
def Lay.bytes (l : Lay) (addr : Nat) : Nat → Prop := fun a => addr ≤ a ∧ a < addr + l.size

/-- Is a pointer to `l` at this address aligned? `src/place.rs:35`, `src/de/impls.rs:496,522`. -/
def Lay.aligned (l : Lay) (addr : Nat) : Prop := l.align ∣ addr

end Miniserde

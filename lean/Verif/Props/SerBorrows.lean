import Verif.Proof.SerBorrows
import Verif.Props.Borrows

/-!
# C62: `to_string` under Stacked Borrows with protectors

Refines `C62_to_string` (`Verif/Props/Borrows.lean`): every reborrow by the driver, protected arguments, accesses inside the methods (`Verif/Spec/SerBorrows.lean`).
-/

namespace Miniserde

open SB

/-- **C62.** At every moment of a run of `to_string` with recorded moves of boxes, whatever the `Serialize`, `Seq` and `Map` implementations do and at whatever memory location: it behaves as the original one; there has been no undefined behaviour under Stacked Borrows if the streams do not
return references into their own box, even though the boxes are moved while references they returned are in use; and there has been none for any streams if a move of a `Box` does not
assert its uniqueness. -/
theorem C62_stacked_borrows {σ : Type} (P : SProto σ) (ryu : F64 → Bytes) (n : Nat) (s : P.S) (w : σ) :
    SExit.untag P (toStringMv P.monitored (SProto.moved P) ryu n (s, 0) (w, Mon.init)) = toStringN P ryu n s w ∧
    SB.SerNoViolation true (fun C => C.lendsFromBox = false) (toStringMv P.monitored (SProto.moved P) ryu n (s, 0) (w, Mon.init)).mon.history ∧
    SB.SerNoViolation false (fun _ => True) (toStringMv P.monitored (SProto.moved P) ryu n (s, 0) (w, Mon.init)).mon.history := by
  have h := toStringMv_good (P := P) (ryu := ryu) moveOk_moved n s w
  generalize toStringMv P.monitored (SProto.moved P) ryu n (s, 0) (w, Mon.init) = y at h
  have key : ∀ m : Mon, m.ok = true → SB.SerNoViolation true (fun C => C.lendsFromBox = false) m.history ∧ SB.SerNoViolation false (fun _ => True) m.history :=
    fun m hm => ⟨fun C hC => SB.serNoViolation true m hm C fun _ => hC, fun C _ => SB.serNoViolation false m hm C fun e => by cases e⟩
  cases y with
  | running st => exact ⟨h.1.symm, key _ h.2.1⟩
  | finished o w' => exact ⟨h.1.symm, key _ h.2.1⟩

/-! ## Examples -/

/-- The location is in the box of builder 1, allocated by `begin`; all methods read and write wherever they may. -/
def exSerBox (lends : Bool) : SerSafe where
  start := .unused
  acts n := if n = 0 then [.alloc] else (List.range 20).flatMap fun t => [.acc (.write (20 - t)), .acc (.reborrow .sharedRO (20 - t) (n % 2 == 0)), .acc (.read (20 - t))]
  cut _ := 40
  direct n := if n = 1 then some 3 else if n = 3 then some 8 else none
  text _ := none
  lendsFromBox := lends
  cell := false

/-- The value passed in contains the location; every stream and element gets a reference to it. -/
def exSerRef : SerSafe where
  start := .value
  acts n := (List.range 20).flatMap fun t => [.acc (.write (20 - t)), .acc (.reborrow .sharedRO (20 - t) (n % 2 == 0)), .acc (.read (20 - t))]
  cut _ := 1
  direct n := if n = 3 then some 9 else none
  text n := some (if n = 5 then 12 else n + 5)
  lendsFromBox := true
  cell := false

/-- The same inside a `Cell`, which the methods write to. -/
def exSerCell : SerSafe where
  start := .value
  acts _ := (List.range 12).flatMap fun t => [.acc (.write (12 - t)), .acc (.reborrow .sharedRW (12 - t) false), .acc (.read (12 - t))]
  cut _ := 1
  direct n := if n = 3 then some 8 else none
  text _ := none
  lendsFromBox := true
  cell := true

/-- The beginning of a run: a stream with one element, which is a stream. -/
def exSerOps : List Op :=
  [.dropBuilder 1, .dropBuilder 3, .callBuilder 3, .newBuilder 3 2, .callVisitor 2, .moveBuilder 1, .newVisitor 2 1, .callBuilder 1, .newBuilder 1 0, .callVisitor 0]

/-- The same, where what is returned passes through a function, which calls another one (`Option::map`, say). -/
example : (St.serRun false { exSerBox true with way := fun n => if n = 1 then [true, true] else [true, false] } [.newBuilder 1 0, .callVisitor 0]).loc.items.map (fun i => (i.tag, i.perm, i.prot)) =
    [(9, .unique, none), (8, .unique, none), (7, .unique, none), (6, .unique, some 3), (5, .unique, some 2), (4, .unique, none), (3, .unique, none)] := by decide +kernel

/-- When a reference into the box is in use, without retags of moved boxes: 5 is the box, 8 was made in `next`, 7 the argument of `next`, 10 is the driver's reference. -/
example : (St.serRun false (exSerBox true) [.newVisitor 2 1, .callBuilder 1, .newBuilder 1 0, .callVisitor 0]).loc.items.map (fun i => (i.tag, i.perm)) =
    [(10, .sharedRO), (9, .sharedRO), (8, .sharedRO), (7, .unique), (6, .unique), (5, .unique), (4, .unique), (3, .unique)] := by decide +kernel

/-- In the end the box has been freed. -/
example : let l := (St.serRun false (exSerBox true) exSerOps).loc
    l.live = false ∧ l.ub = false := by decide +kernel
example : let l := (St.serRun true (exSerBox false) exSerOps).loc
    l.live = false ∧ l.ub = false := by decide +kernel

/-- After the move, the box has a new tag. -/
example : (St.serRun true (exSerBox false) (exSerOps.drop 6)).handle 1 = some 5 ∧ (St.serRun true (exSerBox false) (exSerOps.drop 5)).handle 1 = some 9 := by decide +kernel

/-- The argument stays protected and is only read. -/
example : let l := (St.serRun true exSerRef (exSerOps.drop 4)).loc
    l.ub = false ∧ l.items.length = 20 ∧ l.items.drop (l.items.length - 3) = [⟨2, .sharedRO, none⟩, ⟨1, .sharedRO, some 0⟩, ⟨0, .unique, none⟩] := by decide +kernel

/-- In a `Cell` the argument is not protected; the driver's reference to an element stays valid. -/
example : let s := St.serRun true exSerCell (exSerOps.drop 4)
    s.loc.ub = false ∧ s.handle 2 = some 10 ∧ ⟨10, .sharedRW, none⟩ ∈ s.views 2 ∧ s.loc.items.drop (s.loc.items.length - 3) = [⟨2, .sharedRW, none⟩, ⟨1, .sharedRW, none⟩, ⟨0, .unique, none⟩] := by decide +kernel

/-- The driver does read a string that the element returns. -/
example : exSerRef.text 5 = some 12 ∧ (locate false 12 (((St.serRun true exSerRef (exSerOps.drop 5)).serBegin false (exSerRef.acts 5) 2).lendable 2)).isSome = true := by decide +kernel

/-! The rules do forbid things. -/

/-- Finding: a stream that returns a reference to a field of its own, when moving a box asserts its uniqueness (see also `Verif/Props/Borrows.lean`). -/
example : ∃ h, (toStringMv (exCounter 1).monitored (SProto.moved _) (fun x => (exLit x).text) 1 (none, 0) (7, Mon.init)).mon.history = h ∧
    (St.serRun true (exSerBox true) h).loc.ub = true ∧ (St.serRun false (exSerBox true) h).loc.ub = false := ⟨_, rfl, by decide +kernel, by decide +kernel⟩

/-- Dropping a stream before one made from an element of it. -/
example : (St.serRun false (exSerBox true) [.dropBuilder 3, .dropBuilder 1, .newBuilder 3 2, .callVisitor 2, .newVisitor 2 1, .callBuilder 1, .newBuilder 1 0, .callVisitor 0]).loc.ub = true := by decide +kernel

/-- Using an element after `next` was called again. -/
example : (St.serRun false (exSerBox true) [.callVisitor 2, .callBuilder 1, .newVisitor 2 1, .callBuilder 1, .newBuilder 1 0, .callVisitor 0]).loc.ub = true := by decide +kernel

end Miniserde

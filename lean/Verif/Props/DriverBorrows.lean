import Verif.Proof.DriverBorrowsInv
import Verif.Props.Discipline

/-!
# C61: `from_str` under Stacked Borrows with protectors

Refines `C61_from_str` (`Verif/Props/Borrows.lean`): every reborrow by the driver and `NonuniqueBox`, protected arguments, raw pointers with permissions of their own (`Verif/Spec/DriverBorrows.lean`).
-/

namespace Miniserde

open SB

/-- **C61.** Whatever the `Visitor`s, `Seq`s and `Map`s do, at whatever memory location, for every input and outcome (also `Err` and panics): the run of `from_str` has no undefined behaviour
under Stacked Borrows. -/
theorem C61_stacked_borrows {σ : Type} (P : Proto σ) (s : Bytes) (v : P.V) (w : σ) :
    ∃ r w' m, fromStrImpl P s v w = some (r, w') ∧ fromStrImpl P.monitored s (v, 0) (w, Mon.init) = some (r, (w', m)) ∧ SB.NoViolation m.history := by
  obtain ⟨r, w', m, h1, h2, h3, -⟩ := C07_stack_discipline P s v w
  exact ⟨r, w', m, h1, h2, SB.noViolation m h3⟩

/-! ## Examples -/

/-- The location is in the box of builder 1, allocated by `seq`; the first visitor it returns, too, points there.  All methods write wherever they may. -/
def exInBox : Safe where
  start := .unused
  acts n := if n = 0 then [.alloc] else (List.range 30).map fun t => .acc (.write (30 - t))
  cut _ := 30
  direct n := if n = 1 then some 4 else if n = 3 then some 10 else none

/-- The argument of `from_str_impl` points to the location, and every visitor and builder gets a reference derived from that. -/
def exByRef : Safe where
  start := .direct
  acts n := (List.range 30).flatMap fun t => [.acc (.write (30 - t)), .acc (.reborrow .unique (30 - t) (n % 2 == 0)), .acc (.read (30 - t))]
  cut _ := 1
  direct n := some (n + 6)

/-- The run on `[1,{`. -/
theorem exRun_history : (fromStrImpl tracer.monitored (str! "[1,{") ((), 0) ([], Mon.init)).map (·.2.2.history) =
    some [.dropBuilder 1, .dropBuilder 4, .newBuilder 4 3, .callVisitor 3, .newVisitor 3 1, .callBuilder 1, .callVisitor 2, .newVisitor 2 1, .callBuilder 1, .newBuilder 1 0, .callVisitor 0] := by
  decide +kernel

/-- When visitor 2 has been called: 8 is the driver's pointer to builder 1, 15 its pointer to the visitor, 17 the argument `&mut self`. -/
example : (St.run exInBox [.callVisitor 2, .newVisitor 2 1, .callBuilder 1, .newBuilder 1 0, .callVisitor 0]).loc.items.map (fun i => (i.tag, i.perm)) =
    [(17, .unique), (16, .unique), (15, .sharedRW), (14, .unique), (13, .unique), (10, .unique), (9, .unique), (8, .sharedRW), (7, .unique), (6, .unique), (5, .unique), (4, .unique)] := by
  decide +kernel

/-- The same, where what is returned passes through a function, or through one that calls another one: more entries, some with the protectors of these calls, which have ended. -/
example : (St.run { exInBox with way := fun n => if n = 1 then [true] else [true, true, false] } [.newBuilder 1 0, .callVisitor 0]).loc.items.map (fun i => (i.tag, i.perm, i.prot)) =
    [(10, .sharedRW, none), (9, .unique, some 5), (8, .unique, some 4), (7, .unique, none), (6, .unique, some 3), (5, .unique, none), (4, .unique, none)] ∧
    (St.run { exInBox with way := fun n => if n = 1 then [true] else [true, true, false] } [.dropBuilder 1, .callBuilder 1, .callVisitor 2, .newVisitor 2 1, .callBuilder 1, .newBuilder 1 0, .callVisitor 0]).loc.ub = false := by
  decide +kernel

/-- In the end the box has been freed. -/
example : (St.run exInBox [.dropBuilder 1, .dropBuilder 4, .newBuilder 4 3, .callVisitor 3, .newVisitor 3 1, .callBuilder 1, .callVisitor 2, .newVisitor 2 1, .callBuilder 1,
    .newBuilder 1 0, .callVisitor 0]).loc.live = false := by decide +kernel

/-- Builders and visitors that work with what they were lent leave the argument alone (tag 1, protected by the call of `from_str_impl`). -/
example : let l := (St.run exByRef [.callVisitor 3, .newVisitor 3 1, .callBuilder 1, .callVisitor 2, .newVisitor 2 1, .callBuilder 1, .newBuilder 1 0, .callVisitor 0]).loc
    l.ub = false ∧ l.items.length = 8 ∧ l.items.drop (l.items.length - 4) = [⟨3, .sharedRW, none⟩, ⟨2, .unique, some 1⟩, ⟨1, .unique, some 0⟩, ⟨0, .unique, none⟩] := by decide +kernel

/-! The rules do forbid things. -/

/-- Using a visitor after its builder was called again. -/
example : (St.run exInBox [.callVisitor 2, .callBuilder 1, .newVisitor 2 1, .callBuilder 1, .newBuilder 1 0, .callVisitor 0]).loc.ub = true := by decide +kernel

/-- Using a visitor after its builder was dropped. -/
example : (St.run exInBox [.callVisitor 2, .dropBuilder 1, .newVisitor 2 1, .callBuilder 1, .newBuilder 1 0, .callVisitor 0]).loc.ub = true := by decide +kernel
example : ¬ SB.NoViolation [.callVisitor 2, .dropBuilder 1, .newVisitor 2 1, .callBuilder 1, .newBuilder 1 0, .callVisitor 0] := fun h => by
  have := h exInBox
  revert this
  decide +kernel

/-- Dropping a builder before one that was made by a visitor of it. -/
example : (St.run exInBox [.dropBuilder 4, .dropBuilder 1, .newBuilder 4 3, .callVisitor 3, .newVisitor 3 1, .callBuilder 1, .newBuilder 1 0, .callVisitor 0]).loc.ub = true := by decide +kernel

/-- Using the visitor while the builder it returned is still used. -/
example : (St.run exByRef [.callBuilder 1, .callVisitor 0, .newBuilder 1 0, .callVisitor 0]).loc.ub = true := by decide +kernel

end Miniserde

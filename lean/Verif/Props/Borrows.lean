import Verif.Proof.Borrows
import Verif.Props.Discipline
import Verif.Props.Ser

/-!
# C61, C62: the unsafe code of the two drivers follows the aliasing rules

`from_str_impl` and `to_string_impl` keep references past their lifetimes (`src/careful.rs`).  Here: no implementation of the traits in safe code can make them
break the rules of Stacked Borrows (`Verif/Spec/Borrows.lean`).
-/

namespace Miniserde

section
variable {σ : Type}

/-- **C61.** Whatever the `Visitor`s, `Seq`s and `Map`s do, at whatever memory location, for every input and outcome: the run of `from_str` has no aliasing violation.
The builders are in `NonuniqueBox`es, which assert no uniqueness when moved. -/
theorem C61_from_str (P : Proto σ) (s : Bytes) (v : P.V) (w : σ) :
    ∃ r w' m, fromStrImpl P s v w = some (r, w') ∧ fromStrImpl P.monitored s (v, 0) (w, Mon.init) = some (r, (w', m)) ∧
      NoAliasingViolation false (fun _ => True) m.history := by
  obtain ⟨r, w', m, h1, h2, h3, -⟩ := C07_stack_discipline P s v w
  exact ⟨r, w', m, h1, h2, discipline_no_violation m h3⟩

/-- **C61, the protected argument.** The visitor passed to `from_str_impl` is a function argument of reference type, which Stacked Borrows protects during the call: its entry on
the borrow stack of any location it points to may not be popped or disabled, nor the location freed, before the call returns.  This is so at every moment. -/
theorem C61_argument_protected (C : Code) (hp : C.points 0 = true) (h : List Op) :
    (Cell.run false C h).alloc = .live ∧
    (Cell.run false C h).items.getLast? = some ⟨0, if C.shared 0 then .shared else .unique⟩ :=
  ⟨(Cell.run_protected hp h).live, (Cell.run_protected hp h).bottom⟩

/-- **C62.** At every moment of a run of `to_string` with recorded moves of boxes: it behaves as the original one; there has been no aliasing violation if the streams do not
lend references into their own box, even though the boxes are moved while references they lent are alive; and there has been none for any streams if a move of a
`Box` does not assert uniqueness. -/
theorem C62_to_string (P : SProto σ) (ryu : F64 → Bytes) (n : Nat) (s : P.S) (w : σ) :
    SExit.untag P (toStringMv P.monitored (SProto.moved P) ryu n (s, 0) (w, Mon.init)) = toStringN P ryu n s w ∧
    NoAliasingViolation true (fun C => C.lendsFromBox = false) (toStringMv P.monitored (SProto.moved P) ryu n (s, 0) (w, Mon.init)).mon.history ∧
    NoAliasingViolation false (fun _ => True) (toStringMv P.monitored (SProto.moved P) ryu n (s, 0) (w, Mon.init)).mon.history := by
  have h := toStringMv_good (P := P) (ryu := ryu) moveOk_moved n s w
  generalize toStringMv P.monitored (SProto.moved P) ryu n (s, 0) (w, Mon.init) = y at h
  cases y with
  | running st => exact ⟨h.1.symm, discipline_no_violation_retag _ h.2.1, discipline_no_violation _ h.2.1⟩
  | finished o w' => exact ⟨h.1.symm, discipline_no_violation_retag _ h.2.1, discipline_no_violation _ h.2.1⟩

end

/-! ## Examples -/

/-- Code that points a builder's visitors into the builder's box and writes there in every call. -/
def exLending : Code := ⟨fun i => i ≠ 0, fun _ => false, fun _ => .write, fun _ => true, true, true⟩

/-- The location is in the box of builder 1 of `[1,{`; it is written by 1, by its visitors 2, 3, by builder 4, and freed in the end. -/
example : (fromStrImpl tracer.monitored (str! "[1,{") ((), 0) ([], Mon.init)).map (fun x => Cell.run false exLending x.2.2.history) =
    some ⟨.freed, [⟨1, .unique⟩], [4, 3, 2, 1], [], some 1, some 1, true⟩ := by decide +kernel

/-- Just before the drops. -/
example : (Cell.run false exLending [.newBuilder 4 3, .callVisitor 3, .newVisitor 3 1, .callBuilder 1, .callVisitor 2, .newVisitor 2 1,
    .callBuilder 1, .newBuilder 1 0, .callVisitor 0]).items = [⟨4, .unique⟩, ⟨3, .unique⟩, ⟨1, .unique⟩] := by decide +kernel

/-- The argument points to the location and lends it to builders and visitors below it. -/
example : (Cell.run false ⟨fun _ => true, fun _ => false, fun _ => .write, fun _ => true, false, true⟩ [.newBuilder 4 3, .callVisitor 3, .newVisitor 3 1,
    .callBuilder 1, .newBuilder 1 0, .callVisitor 0]).items = [⟨4, .unique⟩, ⟨3, .unique⟩, ⟨1, .unique⟩, ⟨0, .unique⟩] := by decide +kernel

/-! The rules do forbid things. -/

/-- With a plain `Box` in place of `NonuniqueBox`, moving the builder to the stack would invalidate the visitor it has handed out. -/
example : (Cell.run true exLending [.callVisitor 2, .moveBuilder 1, .newVisitor 2 1, .callBuilder 1, .newBuilder 1 0, .callVisitor 0]).ok = false ∧
    (Cell.run false exLending [.callVisitor 2, .moveBuilder 1, .newVisitor 2 1, .callBuilder 1, .newBuilder 1 0, .callVisitor 0]).ok = true := by
  decide +kernel

/-- Using a visitor after its builder was called again. -/
example : (Cell.run false exLending [.callVisitor 2, .callBuilder 1, .newVisitor 2 1, .callBuilder 1, .newBuilder 1 0, .callVisitor 0]).ok = false := by
  decide +kernel

/-- Using a visitor after its builder was dropped. -/
example : (Cell.run false exLending [.callVisitor 2, .dropBuilder 1, .newVisitor 2 1, .callBuilder 1, .newBuilder 1 0, .callVisitor 0]).ok = false := by
  decide +kernel

/-- Finding: `to_string` moves the `Box` of a stream to its stack after the stream has handed out its first element.  Under Stacked Borrows this is undefined
behaviour for a stream that hands out a reference to a field of its own (which safe code can do), when `begin` then reads through the reference. -/
example : ∃ h, (toStringMv (exCounter 1).monitored (SProto.moved _) (fun x => (exLit x).text) 1 (none, 0) (7, Mon.init)).mon.history = h ∧
    (Cell.run true ⟨fun i => i ≠ 0, fun i => i % 2 = 0, fun _ => .read, fun _ => true, true, true⟩ h).ok = false := ⟨_, rfl, by decide +kernel⟩

end Miniserde

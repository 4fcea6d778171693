import Verif.Model.PanicMem

/-!
# Where values are
-/

namespace Miniserde

/-- The values an array builder owns: the initialised part of its buffer and the current element. -/
def ArrB.owned (b : ArrB) : List Nat := (b.array.take b.len).filterMap id ++ b.element.toList

/-- The values that somebody owns. -/
def ArrMem.held (m : ArrMem) : List Nat :=
  m.out.getD [] ++ (match m.bld with | some b => b.owned | none => []) ++ m.pool

/-- The values that somebody owns. -/
def BoxMem.held (m : BoxMem) : List Nat :=
  m.out.toList ++ (match m.bld with | some b => b.value.toList | none => []) ++ m.pool

/-- The inner builder of a builder is in use. -/
def BoxMem.open (m : BoxMem) : Nat := match m.bld with | some b => if b.alive then 1 else 0 | none => 0

end Miniserde

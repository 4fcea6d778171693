import Verif.Model.SerThreads
import Verif.Spec.Threads

/-!
# What it means that threads may serialize shared values
-/

namespace Miniserde.SerThreads

/-- Thread `i` has returned the text `r`, or panicked if `r` is `none`. -/
def SPool.Returned (P : SPool) (i : Nat) (r : Option Bytes) : Prop := P.threads[i]? = some (.ret (.finished r))

/-- Every thread has returned. -/
def SPool.AllReturned (P : SPool) : Prop := ∀ i, i < P.threads.length → ∃ r, P.Returned i r

/-- The pool after the first `T` steps of an infinite schedule. -/
def SPool.after (E : Env) (order : List (Bytes × Val) → List Nat) (ryu : F64 → Bytes) (P : SPool) (sched : Nat → Nat) (T : Nat) : SPool :=
  P.run E order ryu ((List.range T).map sched)

/-- The object that the next memory operation of a program accesses, and whether the operation writes (overwrites or frees it). -/
def SProg.accesses {α : Type} : SProg α → Option (Nat × Bool)
  | .load a _ => some (a, false)
  | .store a _ _ => some (a, true)
  | .free a _ => some (a, true)
  | _ => none

/-- The access that thread `i` is about to make. -/
def SPool.accesses (P : SPool) (i : Nat) : Option (Nat × Bool) := P.threads[i]?.bind SProg.accesses

/-- The same order of iteration, as a function from the entries of a map to its entries. -/
def reorder (order : List (Bytes × Val) → List Nat) (ms : List (Bytes × Val)) : List (Bytes × Val) := (order ms).filterMap (ms[·]?)

/-- Every map is iterated from one end to the other: each entry comes exactly once. -/
def IteratesAll (order : List (Bytes × Val) → List Nat) : Prop := ∀ ms, (order ms).Perm (List.range ms.length)

end Miniserde.SerThreads

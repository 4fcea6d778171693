import Verif.Model.Threads

/-!
# What it means that threads do not disturb each other
-/

namespace Miniserde.Threads

/-- Thread `i` has returned `r` from its call of `from_str`. -/
def Pool.Returned (P : Pool) (i : Nat) (r : Option (Res Val)) : Prop := P.threads[i]? = some (.ret r)

/-- Every thread has returned. -/
def Pool.AllReturned (P : Pool) : Prop := ∀ i, i < P.threads.length → ∃ r, P.Returned i r

/-- The pool after the first `T` steps of an infinite schedule. -/
def Pool.after (P : Pool) (sched : Nat → Nat) (T : Nat) : Pool := P.run ((List.range T).map sched)

/-- Thread `i` gets turns again and again; nothing is said of the other threads. -/
def KeepsRunning (sched : Nat → Nat) (i : Nat) : Prop := ∀ T, ∃ T', T ≤ T' ∧ sched T' = i

/-- The object that the next memory operation of a program reads, overwrites or frees. -/
def Prog.accesses {α : Type} : Prog α → Option Nat
  | .load a _ => some a
  | .store a _ _ => some a
  | .free a _ => some a
  | _ => none

/-- The object that thread `i` is about to access. -/
def Pool.accesses (P : Pool) (i : Nat) : Option Nat := P.threads[i]?.bind Prog.accesses

end Miniserde.Threads

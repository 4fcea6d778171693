import Verif.Model.Unwind
import Verif.Spec.Monitor

/-!
# The borrow monitor when destructors panic
-/

namespace Miniserde
variable {σ : Type} {P : Proto σ}

/-- A layer of the monitored implementation, without its number. -/
def Layer.untag : Layer P.monitored → Layer P
  | .seq q => .seq q.1
  | .map m => .map m.1

/-- The monitored implementation panics where the original one does. -/
def monBomb (bomb : Layer P → σ → Bool) : Layer P.monitored → σ × Mon → Bool := fun l x => bomb l.untag x.1

/-- Number of times builder `id` was made. -/
def Mon.makes (m : Mon) (id : Nat) : Nat := m.history.countP fun o => match o with | .newBuilder i _ => i == id | _ => false

/-- Number of times builder `id` was dropped. -/
def Mon.drops (m : Mon) (id : Nat) : Nat := m.history.countP fun o => match o with | .dropBuilder i => i == id | _ => false

end Miniserde

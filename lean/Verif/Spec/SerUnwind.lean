import Verif.Model.SerUnwind
import Verif.Spec.SerMonitor
import Verif.Spec.Unwind

/-!
# The borrow monitor for serialization when destructors panic
-/

namespace Miniserde
variable {σ : Type} {P : SProto σ}

/-- The monitored implementation panics where the original one does. -/
def monBombS (bomb : SLayer P → σ → Bool) : SLayer P.monitored → σ × Mon → Bool := fun l x => bomb (SLayer.untag P l) x.1

/-- Forget the tags and the monitor. -/
def SUExit.untag : SUExit P.monitored → SUExit P
  | .running st => .running ⟨st.out, st.stack.map (SLayer.untag P), Frag.untag st.frag, st.w.1⟩
  | .finished o w => .finished o w.1

/-- The monitor of a run, running or finished. -/
def SUExit.mon : SUExit P.monitored → Mon
  | .running st => st.w.2
  | .finished _ w => w.2

/-- A run without panicking destructors. -/
def SUExit.ofExit : SExit P → SUExit P
  | .running st => .running st
  | .finished (some out) w => .finished (.ok out) w
  | .finished none w => .finished .panic w

end Miniserde

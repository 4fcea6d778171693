import Verif.Spec.SerGeneric
import Verif.Spec.Encode

/-!
# Values that are written like a library value
-/

namespace Miniserde
variable {σ : Type}

/-- `to_string` of the value `r`, built from hand-written implementations of `Serialize`, returns in every state of theirs the text that `to_string` of the value `v` of the library or derived type
`t` returns. -/
def ShowsLike (W : UserSer σ) (ryu : F64 → Bytes) (E : Env) (order : Nat → List (Bytes × Val) → List (Bytes × Val)) (r : SRef W.U W.K) (t : Ty) (v : Val) : Prop :=
  ∃ o, PrintsAs E order ryu t v o ∧ ∀ w, ∃ w', ToStr W ryu r w (some o) w'

/-- The key `x` of a hand-written type is shown as `s`, in every state. -/
def KeyShows (W : UserSer σ) (x : W.K) (s : Bytes) : Prop := ∀ w, ∃ w', W.toStr x w = (some s, w')

end Miniserde
